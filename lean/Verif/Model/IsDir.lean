import Mathlib.Data.Nat.Notation
/-
Model of isdir and make_directory, /repo/src/sdf/isdir.cc and /repo/src/sdf/make_directory.cc. The file
system is given by the field st_mode which stat() gives for each name, after links were followed, or
nothing if stat() fails. mkdir() makes a directory if there is nothing with the name and the system
permits it.
-/
namespace Verif.IsDir

/-- S_IFDIR, sys/stat.h of Linux. -/
def sIfDir : ℕ := 0o040000

/-- The modes of all files. -/
abbrev Fs := List Char → Option ℕ

/-- isdir, isdir.cc:25-32. -/
def isdir (fs : Fs) (name : List Char) : Bool :=
  match fs name with
  | none => false
  | some mode => mode &&& sIfDir ≠ 0

/-- mkdir(2): -1 or 0 and the new file system. `permit` is what the system permits (the parent is a
directory, there is space, ...), `umask` what remains of the mode. -/
def mkdir (permit : Bool) (umask : ℕ → ℕ) (fs : Fs) (name : List Char) (mode : ℕ) : Int × Fs :=
  if (fs name).isSome ∨ permit = false then (-1, fs)
  else (0, fun n => if n = name then some (sIfDir ||| (umask mode &&& 0o7777)) else fs n)

/-- What make_directory does, make_directory.cc:30-35. -/
structure Made where
  result : Bool
  output : List Char
  fs : Fs

/-- make_directory, make_directory.cc:30-35. -/
def makeDirectory (permit : Bool) (umask : ℕ → ℕ) (fs : Fs) (name : List Char) (mode : ℕ) : Made :=
  let r := mkdir permit umask fs name mode
  ⟨r.1 == 0, name ++ ['\n'], r.2⟩

end Verif.IsDir

import Verif.Model.IsDir
import Mathlib.Data.Nat.Bitwise
/-
Properties of isdir and make_directory: C90.
-/
namespace Verif.IsDir

/-- The types of files of POSIX with their numbers in Linux. -/
inductive Kind
  | fifo | chr | dir | blk | reg | lnk | sock

/-- The bits of st_mode for each type, inode(7). -/
def Kind.bits : Kind → ℕ
  | .fifo => 0o010000
  | .chr => 0o020000
  | .dir => 0o040000
  | .blk => 0o060000
  | .reg => 0o100000
  | .lnk => 0o120000
  | .sock => 0o140000

/-- The mode of a file of a type: S_ISDIR and the like compare the four bits S_IFMT. -/
def HasKind (mode : ℕ) (k : Kind) : Prop := mode &&& 0o170000 = k.bits

theorem and_dir (mode : ℕ) : mode &&& sIfDir = (mode &&& 0o170000) &&& sIfDir := by
  rw [Nat.and_assoc]
  rfl

/-- C90: for files which are not block devices or sockets isdir tells whether they are directories. What
is missing: it is wrong for block devices and sockets, `c90_negation_kind`. -/
theorem c90_isdir_partial (fs : Fs) (name : List Char) {mode : ℕ} {k : Kind} (h : fs name = some mode)
    (hk : HasKind mode k) (h1 : k ≠ .blk) (h2 : k ≠ .sock) : isdir fs name = true ↔ k = .dir := by
  rw [isdir, h]
  dsimp only
  rw [and_dir, hk]
  cases k <;> simp_all [Kind.bits, sIfDir]

/-- C90: what does not exist is not a directory. -/
theorem c90_none (fs : Fs) (name : List Char) (h : fs name = none) : isdir fs name = false := by
  rw [isdir, h]

/-- C90, negation: every block device and every socket is a directory for isdir. -/
theorem c90_negation_kind (fs : Fs) (name : List Char) {mode : ℕ} {k : Kind} (h : fs name = some mode)
    (hk : HasKind mode k) (h1 : k = .blk ∨ k = .sock) : isdir fs name = true := by
  rw [isdir, h]
  dsimp only
  rw [and_dir, hk]
  rcases h1 with rfl | rfl <;> simp [Kind.bits, sIfDir]

/-- C90: make_directory returns true exactly if it made a directory: then there is a directory where there
was nothing, with the permissions of the mode; otherwise nothing is changed. It never changes other files,
and it prints the name in both cases. -/
theorem c90_make (permit : Bool) (umask : ℕ → ℕ) (fs : Fs) (name : List Char) (mode : ℕ) :
    ((makeDirectory permit umask fs name mode).result = true ↔ fs name = none ∧ permit = true) ∧
    ((makeDirectory permit umask fs name mode).result = true →
      isdir (makeDirectory permit umask fs name mode).fs name = true ∧
      ∃ m, (makeDirectory permit umask fs name mode).fs name = some m ∧ HasKind m .dir ∧
        m &&& 0o7777 = umask mode &&& 0o7777) ∧
    ((makeDirectory permit umask fs name mode).result = false →
      (makeDirectory permit umask fs name mode).fs = fs) ∧
    (∀ n, n ≠ name → (makeDirectory permit umask fs name mode).fs n = fs n) ∧
    (makeDirectory permit umask fs name mode).output = name ++ ['\n'] := by
  rw [makeDirectory, mkdir]
  by_cases h : (fs name).isSome ∨ permit = false
  · rw [if_pos h]
    have : ¬(fs name = none ∧ permit = true) := by
      rintro ⟨h1, h2⟩
      rw [h1, h2] at h
      simp at h
    refine ⟨?_, ?_, ?_, ?_, rfl⟩
    · simpa using this
    · intro h'
      simp at h'
    · intro _
      rfl
    · intro n _
      rfl
  · rw [if_neg h]
    rw [not_or, Option.not_isSome_iff_eq_none, Bool.not_eq_false] at h
    have e1 : ∀ x : ℕ, (sIfDir ||| (x &&& 0o7777)) &&& 0o170000 = 0o040000 := by
      intro x
      rw [Nat.and_or_distrib_right, Nat.and_assoc]
      simp [sIfDir]
    have e2 : ∀ x : ℕ, (sIfDir ||| (x &&& 0o7777)) &&& 0o7777 = x &&& 0o7777 := by
      intro x
      rw [Nat.and_or_distrib_right, Nat.and_assoc]
      simp [sIfDir]
    refine ⟨by simp [h], fun _ => ⟨?_, _, if_pos rfl, e1 _, e2 _⟩, ?_, fun n hn => if_neg hn, rfl⟩
    · have : (fun n => if n = name then some (sIfDir ||| (umask mode &&& 0o7777)) else fs n) name =
          some (sIfDir ||| (umask mode &&& 0o7777)) := if_pos rfl
      rw [isdir]
      dsimp only
      rw [if_pos rfl]
      dsimp only
      rw [and_dir, e1]
      rfl
    · intro h'
      simp at h'

example : HasKind 0o040755 .dir ∧ HasKind 0o100644 .reg ∧ HasKind 0o140777 .sock := by
  refine ⟨rfl, rfl, rfl⟩

end Verif.IsDir

import Verif.Model.DataFile
/-
Model of what OutDataFile does to the files of a directory, one operation of the system at a time
(src/sdf/data_file.cc, odata_file.cc, rename_file.cc, delete_file.cc, file_exists.cc).

* A program which stops leaves the files as they are after some number of these steps. Writing is done
  byte by byte: a stop in the middle of `write` leaves any number of the bytes in the file.
* Only this program changes the files, and it has the permissions to do so (so that no `abort` of
  these functions happens, rename_file.cc:28-38, data_file.cc:81-86). What the system keeps in memory
  is considered written (a stop of the program, not of the machine).
-/
namespace Verif.Sdf

abbrev Path := List Byte

/-- The files of the system: contents, or none if there is no such file. -/
abbrev Files := Path → Option (List Byte)

def Files.set (fs : Files) (p : Path) (c : Option (List Byte)) : Files :=
  fun q => if q = p then c else fs q

/-- The files and the variable `existed` of the constructor, odata_file.cc:101. -/
structure St where
  fs : Files
  existed : Bool

abbrev Step := St → St

/-- delete_file, delete_file.cc:30-33 (nothing happens if the file does not exist). -/
def unlink (p : Path) : Step := fun s => { s with fs := s.fs.set p none }

/-- `open` with O_CREAT: the file is created, empty, if it does not exist. -/
def create (p : Path) : Step := fun s => { s with fs := s.fs.set p (some ((s.fs p).getD [])) }

/-- Write one byte at the end of an open file. -/
def append (p : Path) (b : Byte) : Step := fun s => { s with fs := s.fs.set p ((s.fs p).map (· ++ [b])) }

/-- file_exists, file_exists.cc:33-36, whose result is kept. -/
def checkExists (p : Path) : Step := fun s => { s with existed := (s.fs p).isSome }

/-- A step which is only done if the file did not exist. -/
def unlessExisted (f : Step) : Step := fun s => if s.existed then s else f s

/-- A step which is only done if a file exists. -/
def ifExists (p : Path) (f : Step) : Step := fun s => if (s.fs p).isSome then f s else s

/-- `rename`, which replaces the destination. -/
def rename (orig dest : Path) : Step := fun s => { s with fs := (s.fs.set dest (s.fs orig)).set orig none }

/-- The modes of sdf.h:54-58. -/
inductive Mode
  | overwrite | shared | paranoid
deriving DecidableEq, Repr

/-- `".lck"` and `".tmp"`, data_file.cc:76, 91. -/
def lockPath (name : Path) : Path := name ++ [46, 108, 99, 107]
def tmpPath (name : Path) : Path := name ++ [46, 116, 109, 112]

/-- `_actual_filename`, data_file.cc:72-96. -/
def actualPath (mode : Mode) (name : Path) : Path :=
  match mode with
  | .paranoid => tmpPath name
  | _ => name

/-- The constructor of DataFile, data_file.cc:72-97. (Waiting for the lock is not modelled here.) -/
def openData (mode : Mode) (name : Path) : List Step :=
  match mode with
  | .overwrite => [ifExists name (unlink name)]
  | .shared => [create (lockPath name)]
  | .paranoid => [unlink (tmpPath name)]

/-- The constructor of OutDataFile, odata_file.cc:98-106. -/
def openOut (mode : Mode) (name : Path) : List Step :=
  openData mode name ++ [checkExists (actualPath mode name), create (actualPath mode name)]
    ++ header.map fun b => unlessExisted (append (actualPath mode name) b)

/-- DataFile::close, data_file.cc:104-118, with rename_file, rename_file.cc:26-41; called by
OutDataFile::close, odata_file.cc:113-121, and InDataFile::close, idata_file.cc:286-294. -/
def closeData (mode : Mode) (name : Path) : List Step :=
  match mode with
  | .overwrite => []
  | .shared => [unlink (lockPath name)]
  | .paranoid => [ifExists (tmpPath name) (ifExists name (unlink name)),
      ifExists (tmpPath name) (rename (tmpPath name) name)]

/-- Open a file, dump variables and close it. -/
def session (mode : Mode) (name : Path) (rs : List (Value × List Byte)) : List Step :=
  openOut mode name ++ (dumpAll rs).map (append (actualPath mode name)) ++ closeData mode name

/-- The state after some steps. -/
def exec (steps : List Step) (s : St) : St := steps.foldl (fun s f => f s) s

/-- The files after the first `k` steps. -/
def crash (k : Nat) (steps : List Step) (fs : Files) : Files := (exec (steps.take k) ⟨fs, false⟩).fs

/-- The files after all the steps. -/
def runSession (mode : Mode) (name : Path) (rs : List (Value × List Byte)) (fs : Files) : Files :=
  (exec (session mode name rs) ⟨fs, false⟩).fs

/-- Several sessions with the same file. -/
def runSessions (mode : Mode) (name : Path) : List (List (Value × List Byte)) → Files → Files
  | [], fs => fs
  | rs :: rss, fs => runSessions mode name rss (runSession mode name rs fs)

/-- Open a file for reading, idata_file.cc:82-89: the files, and the result of the constructor. -/
def openInMode (mode : Mode) (name : Path) (fs : Files) : Files × Res In :=
  let s := exec (openData mode name) ⟨fs, false⟩
  (s.fs, openIn (s.fs (actualPath mode name)))

/-- Open a file for reading and close it. -/
def readSession (mode : Mode) (name : Path) (fs : Files) : Files :=
  (exec (openData mode name ++ closeData mode name) ⟨fs, false⟩).fs

end Verif.Sdf

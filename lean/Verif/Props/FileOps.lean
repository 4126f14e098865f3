import Verif.Model.FileOps
import Verif.Props.DataFile
/-
Properties of the files left by OutDataFile: C43 (sessions append), C44 (a stop of the program in
paranoid mode), C63 (reading does not change files), C64 (a stop of the program while appending).
-/
namespace Verif.Sdf

theorem Files.set_self (fs : Files) (p : Path) : fs.set p (fs p) = fs := by
  funext q
  simp only [Files.set]
  split <;> simp_all

theorem Files.set_set (fs : Files) (p : Path) (a b : Option (List Byte)) :
    (fs.set p a).set p b = fs.set p b := by
  funext q
  simp only [Files.set]
  split <;> rfl

theorem Files.set_comm (fs : Files) {p p' : Path} (h : p ≠ p') (a b : Option (List Byte)) :
    (fs.set p a).set p' b = (fs.set p' b).set p a := by
  funext q
  simp only [Files.set]
  split <;> split <;> simp_all

theorem Files.set_get (fs : Files) (p : Path) (a : Option (List Byte)) : fs.set p a p = a := by
  simp [Files.set]

theorem Files.set_get_ne (fs : Files) {p q : Path} (h : q ≠ p) (a : Option (List Byte)) :
    fs.set p a q = fs q := by
  simp [Files.set, h]

theorem lockPath_ne (name : Path) : name ≠ lockPath name := by
  intro h
  have := congrArg List.length h
  simp [lockPath] at this

theorem tmpPath_ne (name : Path) : name ≠ tmpPath name := by
  intro h
  have := congrArg List.length h
  simp [tmpPath] at this

theorem exec_append (xs ys : List Step) (s : St) : exec (xs ++ ys) s = exec ys (exec xs s) :=
  List.foldl_append ..

theorem exec_write (p : Path) (l : List Byte) (s : St) :
    exec (l.map (append p)) s = { s with fs := s.fs.set p ((s.fs p).map (· ++ l)) } := by
  induction l generalizing s with
  | nil => simp [exec, Files.set_self]
  | cons b l ih =>
    rw [List.map_cons, show exec (append p b :: l.map (append p)) s
      = exec (l.map (append p)) (append p b s) from rfl, ih]
    simp only [append, Files.set_get, Files.set_set, Option.map_map]
    congr 3
    funext x
    simp

theorem exec_write_new (p : Path) (l : List Byte) (s : St) :
    exec (l.map fun b => unlessExisted (append p b)) s
      = if s.existed then s else { s with fs := s.fs.set p ((s.fs p).map (· ++ l)) } := by
  by_cases h : s.existed = true
  · rw [if_pos h]
    induction l with
    | nil => rfl
    | cons b l ih =>
      rw [List.map_cons, show ∀ f, exec (f :: l.map fun b => unlessExisted (append p b)) s
        = exec (l.map fun b => unlessExisted (append p b)) (f s) from fun _ => rfl]
      simp only [unlessExisted, if_pos h]
      exact ih
  · rw [if_neg h, ← exec_write]
    induction l generalizing s with
    | nil => rfl
    | cons b l ih =>
      rw [List.map_cons, List.map_cons,
        show ∀ f, exec (f :: l.map fun b => unlessExisted (append p b)) s
          = exec (l.map fun b => unlessExisted (append p b)) (f s) from fun _ => rfl,
        show exec (append p b :: l.map (append p)) s = exec (l.map (append p)) (append p b s) from rfl]
      simp only [unlessExisted, if_neg h]
      exact ih (append p b s) h

/-- The result of opening a file for writing. -/
theorem exec_openOut (p : Path) (s : St) :
    exec ([checkExists p, create p] ++ header.map fun b => unlessExisted (append p b)) s
      = ⟨s.fs.set p (some ((s.fs p).getD header)), (s.fs p).isSome⟩ := by
  rw [exec_append, exec_write_new]
  simp only [exec, List.foldl_cons, List.foldl_nil, checkExists, create, Files.set_get,
    Files.set_set]
  cases h : s.fs p with
  | none => simp
  | some c => simp

/-- C43: a session adds its variables at the end of the file; a new file gets a header first. The lock
file is gone at the end and no other file changes. -/
theorem c43_shared (name : Path) (rs : List (Value × List Byte)) (fs : Files) :
    runSession .shared name rs fs
      = (fs.set name (some ((fs name).getD header ++ dumpAll rs))).set (lockPath name) none := by
  have hne := lockPath_ne name
  rw [runSession, session, openOut, List.append_assoc (openData _ _), exec_append, exec_append,
    exec_append]
  simp only [actualPath]
  rw [exec_openOut, exec_write]
  simp only [openData, closeData, exec, List.foldl_cons, List.foldl_nil, create, unlink,
    Files.set_get, Files.set_set, Option.map_some]
  rw [Files.set_get_ne _ hne, Files.set_comm _ hne, Files.set_set, Files.set_comm _ hne.symm]

/-- C43: in the overwrite mode the file is new. -/
theorem c43_overwrite (name : Path) (rs : List (Value × List Byte)) (fs : Files) :
    runSession .overwrite name rs fs = fs.set name (some (header ++ dumpAll rs)) := by
  rw [runSession, session, openOut, List.append_assoc (openData _ _), exec_append, exec_append,
    exec_append]
  simp only [actualPath]
  rw [exec_openOut, exec_write]
  have h : (exec (openData .overwrite name) ⟨fs, false⟩).fs = fs.set name none := by
    simp only [openData, exec, List.foldl_cons, List.foldl_nil, ifExists, unlink]
    by_cases hs : (fs name).isSome = true
    · rw [if_pos hs]
    · rw [if_neg hs]
      have hf : fs name = none := by simpa using hs
      rw [← hf, Files.set_self]
  rw [h]
  simp [closeData, exec, Files.set_get, Files.set_set]

/-- C43: any number of sessions leaves the same files as one session with all the variables. -/
theorem c43_sessions (name : Path) {rss : List (List (Value × List Byte))} (h : rss ≠ [])
    (fs : Files) : runSessions .shared name rss fs = runSession .shared name rss.flatten fs := by
  have hne := lockPath_ne name
  induction rss generalizing fs with
  | nil => exact absurd rfl h
  | cons rs rss ih =>
    cases rss with
    | nil => simp [runSessions]
    | cons rs' rss =>
      rw [runSessions, ih (by simp), c43_shared, c43_shared, c43_shared]
      have hd : dumpAll (rs :: rs' :: rss).flatten = dumpAll rs ++ dumpAll (rs' :: rss).flatten := by
        rw [List.flatten_cons, dumpAll, List.map_append, List.flatten_append]; rfl
      rw [Files.set_get_ne _ hne, Files.set_get, Option.getD_some, hd, Files.set_comm _ hne.symm,
        Files.set_set, Files.set_set, List.append_assoc]

/-- C43: the header is written once and all the variables of all the sessions are in the file. -/
theorem c43_contents (name : Path) {rss : List (List (Value × List Byte))} (h : rss ≠ [])
    {fs : Files} (hf : fs name = none) :
    runSessions .shared name rss fs name = some (header ++ dumpAll rss.flatten) := by
  rw [c43_sessions name h, c43_shared, Files.set_get_ne _ (lockPath_ne name), Files.set_get, hf]
  rfl

/-- C43: all of them can be read in the same order. -/
theorem c43_read_back (name : Path) {rss : List (List (Value × List Byte))} (h : rss ≠ [])
    {fs : Files} (hf : fs name = none) (hrs : ∀ rs ∈ rss, ∀ r ∈ rs, ValueOk r.1 ∧ NameOk r.2) :
    (openIn (runSessions .shared name rss fs name)
        >>= loadAll (rss.flatten.map fun r => (r.1.kind, r.2)))
      = .ok (rss.flatten.map fun r => same r.1, ⟨[], false⟩) := by
  rw [c43_contents name h hf]
  have := c42_round_trip_partial rss.flatten (fun r hr => by
    obtain ⟨rs, h1, h2⟩ := List.mem_flatten.1 hr
    exact hrs rs h1 r h2) []
  rw [List.append_nil] at this
  exact this

/-- C43: a file which exists but is empty never gets a header, and what is written to it cannot be
read: here, with a first variable whose name does not begin like a header. -/
theorem c43_empty_file (name : Path) (v : Value) {nm : List Byte} (hn : NameOk nm)
    (h : nm.head? ≠ some 115) (rs : List (Value × List Byte)) {fs : Files} (hf : fs name = some []) :
    openIn (runSession .shared name ((v, nm) :: rs) fs name) = .abort := by
  rw [c43_shared, Files.set_get_ne _ (lockPath_ne name), Files.set_get, hf]
  obtain ⟨x, hx⟩ : ∃ x, dumpAll ((v, nm) :: rs) = nameField nm ++ x := by
    rw [dumpAll, List.map_cons, List.flatten_cons]
    cases v <;> simp only [dump, dumpTensor, dumpTensors, tagBytes, List.append_assoc] <;>
      exact ⟨_, rfl⟩
  simp only [Option.getD_some, List.nil_append, hx, openIn, Option.isNone_some]
  rw [readHeader, readName_append, stored_ok hn, Res.ok_bind]
  simp only
  cases nm with
  | nil => rfl
  | cons c nm =>
    simp only [List.head?_cons, ne_eq, Option.some.injEq] at h
    simp only [charAt, List.length_cons, Nat.zero_lt_succ, if_true, List.getElem?_cons_zero,
      Res.ofOption_some, Res.ok_bind]
    rw [assert_bind_neg h]

example : (fun _ => none : Files) [97] = none ∧ [[(Value.int 1, [98])], []] ≠ [] := by simp
example : runSessions .shared [97] [[(.int 1, [98])], [(.int 2, [99])]] (fun _ => none) [97]
    = some (header ++ dump (.int 1) [98] ++ dump (.int 2) [99]) := by decide +kernel

/-- Steps which do not touch a file. -/
theorem exec_frame {steps : List Step} {q : Path} (h : ∀ f ∈ steps, ∀ s : St, (f s).fs q = s.fs q)
    (s : St) : (exec steps s).fs q = s.fs q := by
  induction steps generalizing s with
  | nil => rfl
  | cons f l ih =>
    rw [show exec (f :: l) s = exec l (f s) from rfl, ih (fun g hg => h g (List.mem_cons_of_mem _ hg)),
      h f (List.mem_cons_self ..)]

/-- The steps of a paranoid session before it is closed. -/
def paranoidWrite (name : Path) (rs : List (Value × List Byte)) : List Step :=
  openOut .paranoid name ++ (dumpAll rs).map (append (tmpPath name))

theorem paranoidWrite_frame (name : Path) (rs : List (Value × List Byte)) :
    ∀ f ∈ paranoidWrite name rs, ∀ s : St, (f s).fs name = s.fs name := by
  have hne := tmpPath_ne name
  intro f hf s
  simp only [paranoidWrite, openOut, openData, actualPath, List.mem_append, List.mem_cons,
    List.not_mem_nil, or_false, List.mem_map] at hf
  rcases hf with ((rfl | rfl | rfl) | ⟨b, _, rfl⟩) | ⟨b, _, rfl⟩
  · exact Files.set_get_ne _ hne _
  · rfl
  · exact Files.set_get_ne _ hne _
  · simp only [unlessExisted]
    split
    · rfl
    · exact Files.set_get_ne _ hne _
  · exact Files.set_get_ne _ hne _

theorem paranoidWrite_result (name : Path) (rs : List (Value × List Byte)) (fs : Files) :
    (exec (paranoidWrite name rs) ⟨fs, false⟩).fs
      = fs.set (tmpPath name) (some (header ++ dumpAll rs)) := by
  rw [paranoidWrite, openOut, List.append_assoc (openData _ _), exec_append, exec_append]
  simp only [actualPath]
  rw [exec_openOut, exec_write]
  simp only [openData, exec, List.foldl_cons, List.foldl_nil, unlink, Files.set_get, Files.set_set,
    Option.getD_none, Option.map_some]

theorem session_paranoid (name : Path) (rs : List (Value × List Byte)) :
    session .paranoid name rs = paranoidWrite name rs
      ++ [ifExists (tmpPath name) (ifExists name (unlink name)),
          ifExists (tmpPath name) (rename (tmpPath name) name)] := rfl

theorem paranoid_unlink (name : Path) (rs : List (Value × List Byte)) (fs : Files) :
    (ifExists (tmpPath name) (ifExists name (unlink name))
        (exec (paranoidWrite name rs) ⟨fs, false⟩)).fs
      = (fs.set (tmpPath name) (some (header ++ dumpAll rs))).set name none := by
  have hne := tmpPath_ne name
  have h := paranoidWrite_result name rs fs
  generalize exec (paranoidWrite name rs) ⟨fs, false⟩ = s at h
  rw [ifExists, h, Files.set_get, Option.isSome_some, if_pos rfl, ifExists]
  by_cases hs : (s.fs name).isSome = true
  · rw [if_pos hs, unlink, h]
  · rw [if_neg hs, h]
    have hn : s.fs name = none := by simpa using hs
    rw [h] at hn
    rw [← hn, Files.set_self]

theorem paranoid_rename (name : Path) (fs : Files) {c : List Byte} {s : St}
    (h : s.fs = (fs.set (tmpPath name) (some c)).set name none) :
    (ifExists (tmpPath name) (rename (tmpPath name) name) s).fs
      = (fs.set name (some c)).set (tmpPath name) none := by
  have hne := tmpPath_ne name
  have ht : s.fs (tmpPath name) = some c := by
    rw [h, Files.set_get_ne _ hne.symm, Files.set_get]
  rw [ifExists, ht, Option.isSome_some, if_pos rfl, rename]
  simp only
  rw [ht, h, Files.set_set, Files.set_comm _ hne.symm, Files.set_set]

/-- C44: a paranoid session which is not interrupted leaves the new contents, no temporary file, and
the other files as they were. -/
theorem c44_finished (name : Path) (rs : List (Value × List Byte)) (fs : Files) :
    runSession .paranoid name rs fs
      = (fs.set name (some (header ++ dumpAll rs))).set (tmpPath name) none := by
  rw [runSession, session_paranoid, exec_append]
  exact paranoid_rename name fs (paranoid_unlink name rs fs)

theorem take_append_two {β : Type} (l : List β) (a b : β) (k : Nat) :
    (k ≤ l.length ∧ (l ++ [a, b]).take k = l.take k) ∨
    (k = l.length + 1 ∧ (l ++ [a, b]).take k = l ++ [a]) ∨
    (l.length + 2 ≤ k ∧ (l ++ [a, b]).take k = l ++ [a, b]) := by
  rcases Nat.lt_or_ge l.length k with h | h
  · rcases Nat.lt_or_ge (l.length + 1) k with h1 | h1
    · right; right
      exact ⟨by omega, List.take_of_length_le (by simp; omega)⟩
    · right; left
      have : k = l.length + 1 := by omega
      subst this
      refine ⟨rfl, ?_⟩
      rw [List.take_append, List.take_of_length_le (by omega), Nat.add_sub_cancel_left]
      rfl
  · left
    exact ⟨h, List.take_append_of_le_length h⟩

/-- C44, what does hold: wherever the program stops, the file has its old contents, or it has all the
new contents, or it does not exist and the temporary file has all the new contents. Missing: the
third case breaks the property. -/
theorem c44_crash_partial (name : Path) (rs : List (Value × List Byte)) (fs : Files) (k : Nat) :
    crash k (session .paranoid name rs) fs name = fs name ∨
    crash k (session .paranoid name rs) fs name = some (header ++ dumpAll rs) ∨
    (crash k (session .paranoid name rs) fs name = none ∧
      crash k (session .paranoid name rs) fs (tmpPath name) = some (header ++ dumpAll rs)) := by
  have hne := tmpPath_ne name
  rw [crash, session_paranoid]
  rcases take_append_two (paranoidWrite name rs)
    (ifExists (tmpPath name) (ifExists name (unlink name)))
    (ifExists (tmpPath name) (rename (tmpPath name) name)) k with ⟨_, h⟩ | ⟨_, h⟩ | ⟨_, h⟩
  · left
    rw [h, exec_frame fun f hf s => paranoidWrite_frame name rs f (List.mem_of_mem_take hf) s]
  · right; right
    have hu := paranoid_unlink name rs fs
    rw [h, exec_append]
    simp only [exec, List.foldl_cons, List.foldl_nil] at hu ⊢
    rw [hu, Files.set_get, Files.set_get_ne _ hne.symm, Files.set_get]
    exact ⟨rfl, rfl⟩
  · right; left
    have := c44_finished name rs fs
    rw [runSession, session_paranoid] at this
    rw [h, this, Files.set_get_ne _ hne, Files.set_get]

/-- C44 does not hold: there is a point at which the old file is gone and the new one does not have
its name yet. -/
theorem c44_lost (name : Path) (rs : List (Value × List Byte)) (fs : Files) :
    ∃ k, k < (session .paranoid name rs).length ∧
      crash k (session .paranoid name rs) fs name = none := by
  refine ⟨(paranoidWrite name rs).length + 1, ?_, ?_⟩
  · rw [session_paranoid]; simp
  · rcases take_append_two (paranoidWrite name rs)
      (ifExists (tmpPath name) (ifExists name (unlink name)))
      (ifExists (tmpPath name) (rename (tmpPath name) name)) ((paranoidWrite name rs).length + 1)
      with ⟨h, _⟩ | ⟨_, h⟩ | ⟨h, _⟩
    · omega
    · have hu := paranoid_unlink name rs fs
      rw [crash, session_paranoid, h, exec_append]
      simp only [exec, List.foldl_cons, List.foldl_nil] at hu ⊢
      rw [hu, Files.set_get]
    · omega

/-- C44: before the file is closed the old contents are always there. -/
theorem c44_before_close (name : Path) (rs : List (Value × List Byte)) (fs : Files) {k : Nat}
    (hk : k + 2 ≤ (session .paranoid name rs).length) :
    crash k (session .paranoid name rs) fs name = fs name := by
  rw [session_paranoid] at hk
  simp only [List.length_append, List.length_cons, List.length_nil] at hk
  rcases take_append_two (paranoidWrite name rs)
    (ifExists (tmpPath name) (ifExists name (unlink name)))
    (ifExists (tmpPath name) (rename (tmpPath name) name)) k with ⟨_, h⟩ | ⟨_, h⟩ | ⟨_, h⟩
  · rw [crash, session_paranoid, h,
      exec_frame fun f hf s => paranoidWrite_frame name rs f (List.mem_of_mem_take hf) s]
  · omega
  · omega

example : (5 : Nat) + 2 ≤ (session .paranoid [97] []).length := by decide +kernel

/-- C63: opening and closing a file for reading in the shared mode changes nothing but the lock file,
and the whole file is read. -/
theorem c63_shared (name : Path) (fs : Files) :
    readSession .shared name fs = fs.set (lockPath name) none ∧
      (openInMode .shared name fs).2 = openIn (fs name) := by
  constructor
  · simp [readSession, openData, closeData, exec, create, unlink, Files.set_set]
  · simp [openInMode, openData, actualPath, exec, create, Files.set_get_ne _ (lockPath_ne name)]

/-- C63: reading in the shared mode (the default). Missing: the other modes, for which it does not
hold. -/
theorem c63_shared_partial (name : Path) (fs : Files) : readSession .shared name fs name = fs name := by
  rw [(c63_shared name fs).1, Files.set_get_ne _ (lockPath_ne name)]

/-- C63 does not hold in the overwrite mode: opening a file for reading deletes it, and then reads
memory which was not initialised. -/
theorem c63_overwrite_deletes (name : Path) (fs : Files) :
    readSession .overwrite name fs name = none ∧ (openInMode .overwrite name fs).2 = .ub := by
  have h : (exec (openData .overwrite name) ⟨fs, false⟩).fs name = none := by
    simp only [openData, exec, List.foldl_cons, List.foldl_nil, ifExists, unlink]
    by_cases hs : (fs name).isSome = true
    · rw [if_pos hs]; exact Files.set_get _ _ _
    · rw [if_neg hs]; simpa using hs
  constructor
  · rw [readSession, closeData, List.append_nil, h]
  · simp only [openInMode, actualPath]
    rw [h]
    exact c47_no_file.1

/-- C63: in the paranoid mode the file is not changed, but it is not read either: a temporary file is
deleted and read instead. -/
theorem c63_paranoid_not_read (name : Path) (fs : Files) :
    readSession .paranoid name fs = fs.set (tmpPath name) none ∧
      (openInMode .paranoid name fs).2 = .ub := by
  constructor
  · simp [readSession, openData, closeData, exec, ifExists, unlink, Files.set_get]
  · simp only [openInMode, actualPath, openData, exec, List.foldl_cons, List.foldl_nil, unlink,
      Files.set_get]
    exact c47_no_file.1

/-- C64: wherever the program stops in a shared session, what was in the file is still there, followed
by a part of what was being written. -/
theorem c64_append (name : Path) (rs : List (Value × List Byte)) {fs : Files} {old : List Byte}
    (hf : fs name = some old) (k : Nat) :
    ∃ n, crash k (session .shared name rs) fs name = some (old ++ (dumpAll rs).take n) := by
  have hne := lockPath_ne name
  have hsess : session .shared name rs = openOut .shared name
      ++ ((dumpAll rs).map (append name) ++ [unlink (lockPath name)]) := by
    simp [session, actualPath, closeData]
  have hopen : ∀ m, (exec ((openOut .shared name).take m) ⟨fs, false⟩).fs name = some old := by
    intro m
    rw [openOut]
    simp only [openData, actualPath, List.cons_append, List.nil_append]
    rcases m with _ | _ | _ | _ | m
    · exact hf
    · simp [exec, create, Files.set_get_ne _ hne, hf]
    · simp [exec, create, checkExists, Files.set_get_ne _ hne, hf]
    · simp [exec, create, checkExists, Files.set_get_ne _ hne, Files.set_get, hf]
    · simp only [List.take_succ_cons, ← List.map_take]
      rw [show ∀ (a b c : Step) (l : List Step) (s : St), exec (a :: b :: c :: l) s
        = exec l (c (b (a s))) from fun _ _ _ _ _ => rfl, exec_write_new]
      simp [create, checkExists, Files.set_get_ne _ hne, Files.set_get, hf]
  rw [crash, hsess, List.take_append, exec_append]
  rcases Nat.lt_or_ge k (openOut .shared name).length with h | h
  · refine ⟨0, ?_⟩
    rw [show k - (openOut .shared name).length = 0 by omega, List.take_zero]
    rw [List.take_zero, List.append_nil]
    exact hopen k
  · have ho := hopen k
    generalize exec ((openOut .shared name).take k) ⟨fs, false⟩ = s at ho
    refine ⟨k - (openOut .shared name).length, ?_⟩
    rw [List.take_append, exec_append, ← List.map_take, exec_write]
    have hlast : ∀ (m : Nat) (s : St), (exec ([unlink (lockPath name)].take m) s).fs name = s.fs name := by
      intro m s
      apply exec_frame
      intro f hf s
      have := List.mem_of_mem_take hf
      simp only [List.mem_cons, List.not_mem_nil, or_false] at this
      subst this
      exact Files.set_get_ne _ hne _
    rw [hlast]
    simp only [Files.set_get, ho, Option.map_some]

/-- C64: so the variables of earlier sessions can still be read. -/
theorem c64_read_back (name : Path) (rs0 rs : List (Value × List Byte)) {fs : Files}
    (hf : fs name = some (header ++ dumpAll rs0)) (hrs : ∀ r ∈ rs0, ValueOk r.1 ∧ NameOk r.2)
    (k : Nat) :
    ∃ s, (openIn (crash k (session .shared name rs) fs name)
        >>= loadAll (rs0.map fun r => (r.1.kind, r.2))) = .ok (rs0.map fun r => same r.1, s) := by
  obtain ⟨n, hn⟩ := c64_append name rs hf k
  rw [hn]
  exact c47_complete_partial rs0 hrs (List.prefix_append _ _)

example : (fun _ => some (header ++ dumpAll []) : Files) [97] = some (header ++ dumpAll []) := rfl

end Verif.Sdf

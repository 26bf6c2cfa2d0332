import Mathlib.Data.List.Infix
/-!
# C77: `vertigo new` leaves alone what is there

Source: `crates/vertigo-cli/src/new/mod.rs`, `crates/vertigo-cli/src/new/template`.

Simplifications: a path is the list of names from the root, after `..` and symbolic links have been followed; the file system is a list of its entries. Of
permissions only the one to list a directory is modelled. Every step can fail for reasons of its own (`Answers`): the disk is full, permissions are missing. A
write that fails has written a part. `include_dir` 0.7 (`Dir::extract`): the entries in order of their names, directories by `create_dir_all`, files by `fs::write`.
-/
namespace Verif.Assets.New

/-! ## Model: the file system -/

abbrev Path := List String

inductive Node where
  | file (content : String)
  | dir (listable : Bool)
  deriving DecidableEq

abbrev FS := List (Path × Node)

def FS.get (fs : FS) (p : Path) : Option Node := (fs.find? fun e => e.1 == p).map (·.2)

def FS.put (fs : FS) (p : Path) (n : Node) : FS := (p, n) :: fs.filter fun e => e.1 != p

def FS.del (fs : FS) (p : Path) : FS := fs.filter fun e => e.1 != p

def FS.isDir (fs : FS) (p : Path) : Bool :=
  match fs.get p with
  | some (.dir _) => true
  | _ => false

/-- `read_dir`: whether there is an entry; `none` is an error. -/
def FS.readDir (fs : FS) (p : Path) : Option Bool :=
  match fs.get p with
  | some (.dir true) => some (fs.any fun e => e.1 != [] && e.1.dropLast == p)
  | _ => none

/-- A step that changes the file system. -/
inductive Step where
  /-- one directory of `create_dir_all` -/
  | mkdir (p : Path)
  /-- `fs::write` -/
  | write (p : Path) (content : String)
  /-- `fs::remove_file` -/
  | remove (p : Path)

/-- The states of the file system while a step is done, and whether it succeeded. The answer `some n` is a failure, a write has then written `n` characters. -/
def Step.exec (fs : FS) (answer : Option Nat) : Step → List FS × Bool
  | .mkdir p =>
      match fs.get p with
      | some (.dir _) => ([fs], true)
      | some (.file _) => ([fs], false)
      | none =>
          if answer = none ∧ (p = [] ∨ fs.isDir p.dropLast = true) then ([fs.put p (.dir true)], true) else ([fs], false)
  | .write p content =>
      match fs.get p with
      | some (.dir _) => ([fs], false)
      | _ =>
          if fs.isDir p.dropLast = true then
            match answer with
            | none => ([fs.put p (.file ""), fs.put p (.file content)], true)
            | some 0 => ([fs], false)
            | some (n + 1) => ([fs.put p (.file ""), fs.put p (.file (String.ofList (content.toList.take n)))], false)
          else ([fs], false)
  | .remove p =>
      match fs.get p with
      | some (.file _) => if answer = none then ([fs.del p], true) else ([fs], false)
      | _ => ([fs], false)

/-! ## Model: the command -/

/-- `str::replace` for a pattern that is not empty; `skip` is what remains of a match. -/
def replace (pat new : List Char) : Nat → List Char → List Char
  | _, [] => []
  | skip + 1, _ :: s => replace pat new skip s
  | 0, c :: s => if pat.isPrefixOf (c :: s) then new ++ replace pat new (pat.length - 1) s else c :: replace pat new 0 s

/-- template/Cargo.toml_ -/
def cargoToml : String :=
  "[package]\nname = \"my_app\"\nversion = \"0.1.0\"\nedition = \"2021\"\n\n# See more keys and their definitions at https://doc.rust-lang.org/cargo/reference/manifest.html\n\n[lib]\ncrate-type = [\"cdylib\", \"rlib\"]\n\n[dependencies]\nvertigo = \"0.6\"\n"

/-- template/src/lib.rs -/
def libRs : String :=
  "use vertigo::{dom, main, DomNode, Value};\n\n#[main]\nfn app() -> DomNode {\n    let message = Value::new(\"world\");\n    dom! {\n        <html>\n            <head />\n            <body>\n                <div>\"Hello \" {message}</div>\n            </body>\n        </html>\n    }\n}\n"

/-- `create_dir_all`: the directories on the way, from the root. -/
def createDirAll (p : Path) : List Step := p.inits.map .mkdir

/-- `TEMPLATE.extract`. -/
def extract (target : Path) : List Step :=
  .write (target ++ ["Cargo.toml_"]) cargoToml :: createDirAll (target ++ ["src"]) ++ [.write (target ++ ["src", "lib.rs"]) libRs]

/-- mod.rs:30-67: the steps with the exit codes of their errors. -/
def steps (name : String) (target : Path) : List (Step × Int) :=
  (createDirAll target).map (·, -2) ++ (extract target).map (·, -3) ++
  [(.remove (target ++ ["Cargo.toml_"]), -4),
    (.write (target ++ ["Cargo.toml"]) (String.ofList (replace "my_app".toList name.toList 0 cargoToml.toList)), -4)]

/-- What happens with the steps of a command. -/
abbrev Answers := List (Option Nat)

/-- One step after the other up to the first error: the states, and the exit code of the error. When there are no more answers everything works. -/
def runSteps (fs : FS) (answers : Answers) : List (Step × Int) → List FS × Option Int
  | [] => ([], none)
  | (s, code) :: rest =>
      let (states, ok) := s.exec fs (answers.headD none)
      if ok then
        let (more, result) := runSteps (states.getLastD fs) answers.tail rest
        (states ++ more, result)
      else (states, some code)

/-- mod.rs:14-70: all states of the file system on the way, the last one being the one in the end, and the error. -/
def runNew (name : String) (target : Path) (fs : FS) (answers : Answers) : List FS × Option Int :=
  match fs.readDir target with
  | some true => ([fs], some (-1))
  | _ =>
      let (states, result) := runSteps fs answers (steps name target)
      (fs :: states, result)

/-! ## Specification -/

/-- A file system: whatever is there is in a directory. -/
structure FS.WF (fs : FS) : Prop where
  parent : ∀ p n, fs.get p = some n → p ≠ [] → ∃ l, fs.get p.dropLast = some (.dir l)

/-- Something is inside of the directory. -/
def Occupied (fs : FS) (target : Path) : Prop := ∃ p, target <+: p ∧ p ≠ target ∧ fs.get p ≠ none

/-- It cannot be listed, but it is there. -/
def Hidden (fs : FS) (target : Path) : Prop := fs.get target = some (.dir false)

/-- The manifest of the new project. -/
def manifest (name : String) : String :=
  "[package]\nname = \"" ++ name ++
    "\"\nversion = \"0.1.0\"\nedition = \"2021\"\n\n# See more keys and their definitions at https://doc.rust-lang.org/cargo/reference/manifest.html\n\n[lib]\ncrate-type = [\"cdylib\", \"rlib\"]\n\n[dependencies]\nvertigo = \"0.6\"\n"

/-- Everything that was there is as it was; what is new is inside of the directory, or one of the directories on the way to it. -/
structure Added (target : Path) (fs fs' : FS) : Prop where
  kept : ∀ p n, fs.get p = some n → fs'.get p = some n
  new : ∀ p, fs.get p = none → fs'.get p ≠ none → target <+: p ∨ (p <+: target ∧ ∃ l, fs'.get p = some (.dir l))

/-- The project is there, and nothing else is in its directory. -/
structure Created (name : String) (target : Path) (fs : FS) : Prop where
  dir : ∃ l, fs.get target = some (.dir l)
  toml : fs.get (target ++ ["Cargo.toml"]) = some (.file (manifest name))
  src : ∃ l, fs.get (target ++ ["src"]) = some (.dir l)
  lib : fs.get (target ++ ["src", "lib.rs"]) = some (.file libRs)
  only : ∀ p, target <+: p → fs.get p ≠ none → p = target ∨ p = target ++ ["Cargo.toml"] ∨ p = target ++ ["src"] ∨ p = target ++ ["src", "lib.rs"]

/-! ## Proofs -/

theorem get_filter (fs : FS) (p q : Path) : FS.get (fs.filter fun e => e.1 != p) q = if q = p then none else fs.get q := by
  unfold FS.get
  induction fs with
  | nil => simp
  | cons e fs ih =>
    by_cases he : e.1 = p
    · rw [List.filter_cons_of_neg (by simp [he]), ih]
      by_cases hq : q = p
      · simp [hq]
      · rw [if_neg hq, if_neg hq, List.find?_cons_of_neg (by simp [he]; exact fun h => hq h.symm)]
    · rw [List.filter_cons_of_pos (by simp [he])]
      by_cases heq : e.1 = q
      · rw [List.find?_cons_of_pos (by simp [heq]), List.find?_cons_of_pos (by simp [heq]), if_neg (by rw [← heq]; exact he)]
      · rw [List.find?_cons_of_neg (by simp [heq]), List.find?_cons_of_neg (by simp [heq]), ih]

theorem get_del (fs : FS) (p q : Path) : (fs.del p).get q = if q = p then none else fs.get q := get_filter fs p q

theorem get_put (fs : FS) (p q : Path) (n : Node) : (fs.put p n).get q = if q = p then some n else fs.get q := by
  by_cases h : q = p
  · subst h
    simp [FS.put, FS.get]
  · rw [if_neg h]
    have := get_filter fs p q
    rw [if_neg h] at this
    rw [← this]
    unfold FS.put FS.get
    rw [List.find?_cons_of_neg (by simp; exact fun e => h e.symm)]

theorem isDir_iff {fs : FS} {p : Path} : fs.isDir p = true ↔ ∃ l, fs.get p = some (.dir l) := by
  unfold FS.isDir
  rcases fs.get p with _ | _ | l <;> simp

/-- What is below something has the things between. -/
theorem between {fs : FS} (hw : fs.WF) (t : Path) (a : String) (r : Path) (n : Node) (h : fs.get (t ++ a :: r) = some n) :
    (∃ l, fs.get t = some (.dir l)) ∧ ∃ m, fs.get (t ++ [a]) = some m := by
  induction r using List.reverseRecOn generalizing n with
  | nil =>
    obtain ⟨l, hl⟩ := hw.parent _ _ h (by simp)
    exact ⟨⟨l, by simpa using hl⟩, n, h⟩
  | append_singleton r b ih =>
    obtain ⟨l, hl⟩ := hw.parent _ _ h (by simp)
    have e : (t ++ a :: (r ++ [b])).dropLast = t ++ a :: r := by
      rw [show t ++ a :: (r ++ [b]) = (t ++ a :: r) ++ [b] by simp, List.dropLast_concat]
    rw [e] at hl
    exact ih _ hl

theorem get_mem {fs : FS} {p : Path} {n : Node} (h : fs.get p = some n) : ∃ e ∈ fs, e.1 = p := by
  unfold FS.get at h
  cases hf : fs.find? (fun e => e.1 == p) with
  | none => rw [hf] at h; cases h
  | some e => exact ⟨e, List.mem_of_find?_eq_some hf, by have := List.find?_some hf; simpa using this⟩

theorem strict {t p : Path} (h : t <+: p) (hne : p ≠ t) : ∃ a r, p = t ++ a :: r := by
  obtain ⟨r, rfl⟩ := h
  cases r with
  | nil => simp at hne
  | cons a r => exact ⟨a, r, rfl⟩

theorem get_of_mem {fs : FS} {e : Path × Node} (h : e ∈ fs) : fs.get e.1 ≠ none := by
  unfold FS.get
  intro hn
  have : fs.find? (fun x => x.1 == e.1) = none := by simpa using hn
  have := List.find?_eq_none.1 this e h
  simp at this

theorem dropLast_append {p : Path} (h : p ≠ []) : ∃ a, p = p.dropLast ++ [a] := ⟨p.getLast h, (List.dropLast_append_getLast h).symm⟩

theorem readDir_true {fs : FS} (hw : fs.WF) {t : Path} (hl : fs.get t = some (.dir true)) : fs.readDir t = some true ↔ Occupied fs t := by
  unfold FS.readDir
  rw [hl]
  simp only [Option.some.injEq, List.any_eq_true, Bool.and_eq_true, bne_iff_ne, ne_eq, beq_iff_eq]
  constructor
  · rintro ⟨e, he, hne, hd⟩
    obtain ⟨a, ha⟩ := dropLast_append hne
    rw [hd] at ha
    exact ⟨e.1, ⟨[a], ha.symm⟩, by rw [ha]; simp, get_of_mem he⟩
  · rintro ⟨p, hp, hne, hg⟩
    obtain ⟨a, r, rfl⟩ := strict hp hne
    obtain ⟨n, hn⟩ := Option.ne_none_iff_exists'.1 hg
    obtain ⟨-, m, hm⟩ := between hw t a r n hn
    obtain ⟨e, he, hee⟩ := get_mem hm
    exact ⟨e, he, by rw [hee]; simp, by rw [hee]; simp⟩

/-- If the command goes on, nothing is in the directory. -/
theorem vacant {fs : FS} (hw : fs.WF) {t : Path} (hh : ¬ Hidden fs t) (hr : fs.readDir t ≠ some true) : ¬ Occupied fs t := by
  intro ho
  obtain ⟨p, hp, hne, hg⟩ := ho
  obtain ⟨a, r, rfl⟩ := strict hp hne
  obtain ⟨n, hn⟩ := Option.ne_none_iff_exists'.1 hg
  obtain ⟨⟨l, hl⟩, -⟩ := between hw t a r n hn
  cases l with
  | false => exact hh hl
  | true => exact hr ((readDir_true hw hl).2 ⟨_, hp, hne, hg⟩)

/-- The step is about the directory: it makes it, or something on the way to it, or it is about what is inside. -/
def Allowed (t : Path) : Step → Prop
  | .mkdir p => p <+: t ∨ t <+: p
  | .write p _ => t <+: p ∧ p ≠ t
  | .remove p => t <+: p ∧ p ≠ t

theorem added_refl (t : Path) (fs : FS) : Added t fs fs := ⟨fun _ _ h => h, fun _ h h' => absurd h h'⟩

theorem added_put {t : Path} {fs0 fs : FS} (h : Added t fs0 fs) {p : Path} {n : Node} (h0 : fs0.get p = none)
    (hp : t <+: p ∨ (p <+: t ∧ ∃ l, n = .dir l)) : Added t fs0 (fs.put p n) := by
  constructor
  · intro q m hq
    rw [get_put, if_neg (by rintro rfl; rw [h0] at hq; cases hq)]
    exact h.kept q m hq
  · intro q hq hn
    rw [get_put] at hn ⊢
    by_cases e : q = p
    · subst e
      rw [if_pos rfl]
      rcases hp with hp | ⟨hp, l, rfl⟩
      · exact .inl hp
      · exact .inr ⟨hp, l, rfl⟩
    · rw [if_neg e] at hn ⊢
      exact h.new q hq hn

theorem added_del {t : Path} {fs0 fs : FS} (h : Added t fs0 fs) {p : Path} (h0 : fs0.get p = none) : Added t fs0 (fs.del p) := by
  constructor
  · intro q m hq
    rw [get_del, if_neg (by rintro rfl; rw [h0] at hq; cases hq)]
    exact h.kept q m hq
  · intro q hq hn
    rw [get_del] at hn ⊢
    by_cases e : q = p
    · rw [if_pos e] at hn; exact absurd rfl hn
    · rw [if_neg e] at hn ⊢
      exact h.new q hq hn

theorem exec_added {t : Path} {fs0 fs : FS} (hv : ¬ Occupied fs0 t) (h : Added t fs0 fs) {s : Step} (ha : Allowed t s) (answer : Option Nat) :
    ∀ fs' ∈ (s.exec fs answer).1, Added t fs0 fs' := by
  have h0 : ∀ p, t <+: p → p ≠ t → fs0.get p = none := fun p hp hne => by
    cases hg : fs0.get p with
    | none => rfl
    | some n => exact absurd ⟨p, hp, hne, by simp [hg]⟩ hv
  cases s with
  | mkdir p =>
    simp only [Step.exec]
    rcases hg : fs.get p with _ | _ | l
    · simp only
      split
      · intro fs' hf
        obtain rfl := List.mem_singleton.1 hf
        refine added_put h ?_ (by rcases ha with ha | ha; exacts [.inr ⟨ha, _, rfl⟩, .inl ha])
        cases h1 : fs0.get p with
        | none => rfl
        | some n => rw [h.kept p n h1] at hg; cases hg
      · intro fs' hf; obtain rfl := List.mem_singleton.1 hf; exact h
    · intro fs' hf; obtain rfl := List.mem_singleton.1 hf; exact h
    · intro fs' hf; obtain rfl := List.mem_singleton.1 hf; exact h
  | write p c =>
    have hp := h0 p ha.1 ha.2
    have hput : ∀ c, Added t fs0 (fs.put p (.file c)) := fun c => added_put h hp (.inl ha.1)
    intro fs' hf
    simp only [Step.exec] at hf
    split at hf
    · obtain rfl := List.mem_singleton.1 hf; exact h
    · split at hf
      · split at hf
        · simp only [List.mem_cons, List.not_mem_nil, or_false] at hf
          rcases hf with rfl | rfl <;> exact hput _
        · obtain rfl := List.mem_singleton.1 hf; exact h
        · simp only [List.mem_cons, List.not_mem_nil, or_false] at hf
          rcases hf with rfl | rfl <;> exact hput _
      · obtain rfl := List.mem_singleton.1 hf; exact h
  | remove p =>
    intro fs' hf
    simp only [Step.exec] at hf
    split at hf
    · split at hf
      · obtain rfl := List.mem_singleton.1 hf; exact added_del h (h0 p ha.1 ha.2)
      · obtain rfl := List.mem_singleton.1 hf; exact h
    · obtain rfl := List.mem_singleton.1 hf; exact h

theorem getLastD_mem {α : Type} (l : List α) (d : α) : l.getLastD d ∈ l ∨ l = [] ∧ l.getLastD d = d := by
  cases l with
  | nil => exact .inr ⟨rfl, rfl⟩
  | cons a l => exact .inl (by rw [List.getLastD_cons]; cases l with
    | nil => simp
    | cons b l => simp [List.getLastD])

theorem runSteps_added {t : Path} {fs0 : FS} (hv : ¬ Occupied fs0 t) (l : List (Step × Int)) (ha : ∀ s ∈ l, Allowed t s.1) :
    ∀ (fs : FS) (answers : Answers), Added t fs0 fs → ∀ fs' ∈ (runSteps fs answers l).1, Added t fs0 fs' := by
  induction l with
  | nil => intro fs answers _ fs' hf; simp [runSteps] at hf
  | cons s l ih =>
    intro fs answers h fs' hf
    have h1 := exec_added hv h (ha s (by simp)) (answers.headD none)
    have hl : Added t fs0 ((s.1.exec fs (answers.headD none)).1.getLastD fs) := by
      rcases getLastD_mem (s.1.exec fs (answers.headD none)).1 fs with hm | ⟨-, he⟩
      · exact h1 _ hm
      · rw [he]; exact h
    simp only [runSteps] at hf
    split at hf
    · rcases List.mem_append.1 hf with hf | hf
      · exact h1 _ hf
      · exact ih (fun s hs => ha s (by simp [hs])) _ _ hl _ hf
    · exact h1 _ hf

theorem steps_allowed (name : String) (t : Path) : ∀ s ∈ steps name t, Allowed t s.1 := by
  intro s hs
  simp only [steps, createDirAll, extract, List.map_map, List.map_cons, List.map_append, List.map_nil, List.mem_append, List.mem_map, List.mem_cons,
    List.not_mem_nil, or_false, List.mem_inits, Function.comp_apply, List.cons_append] at hs
  have hsub : ∀ r : Path, r ≠ [] → t <+: t ++ r ∧ t ++ r ≠ t := fun r hr => ⟨⟨r, rfl⟩, by simpa using hr⟩
  rcases hs with (⟨p, hp, rfl⟩ | rfl | ⟨p, hp, rfl⟩ | rfl) | rfl | rfl
  · exact .inl hp
  · exact hsub _ (by simp)
  · have := List.prefix_concat_iff.1 hp
    rcases this with rfl | hp
    · exact .inr ⟨_, rfl⟩
    · exact .inl hp
  · exact hsub _ (by simp)
  · exact hsub _ (by simp)
  · exact hsub _ (by simp)

/-! ### Success -/

/-- What a step that succeeds does. -/
def Did (fs : FS) : Step → FS → Prop
  | .mkdir p, fs' => ((∃ l, fs.get p = some (.dir l)) ∧ fs' = fs) ∨ (fs.get p = none ∧ fs' = fs.put p (.dir true))
  | .write p c, fs' => fs' = fs.put p (.file c)
  | .remove p, fs' => fs' = fs.del p

theorem exec_did {fs : FS} {answer : Option Nat} {s : Step} (h : (s.exec fs answer).2 = true) : Did fs s ((s.exec fs answer).1.getLastD fs) := by
  cases s with
  | mkdir p =>
    simp only [Step.exec] at h ⊢
    rcases hg : fs.get p with _ | _ | l
    · rw [hg] at h
      simp only at h ⊢
      split at h
      · rename_i hc
        rw [if_pos hc]
        exact .inr ⟨hg, rfl⟩
      · cases h
    · rw [hg] at h; cases h
    · exact .inl ⟨⟨l, hg⟩, rfl⟩
  | write p c =>
    simp only [Step.exec] at h ⊢
    rcases hg : fs.get p with _ | _ | l
    all_goals
      rw [hg] at h
      simp only at h ⊢
      first
        | cases h
        | (split at h
           · rename_i hd
             rw [if_pos hd]
             rcases answer with _ | _ | n
             · rfl
             · cases h
             · cases h
           · cases h)
  | remove p =>
    simp only [Step.exec] at h ⊢
    rcases hg : fs.get p with _ | _ | l
    · rw [hg] at h; cases h
    · rw [hg] at h
      simp only at h ⊢
      split at h
      · rename_i hc
        rw [if_pos hc]
        rfl
      · cases h
    · rw [hg] at h; cases h

/-- Steps that all succeed. -/
inductive Steps : FS → List Step → FS → Prop
  | nil (fs : FS) : Steps fs [] fs
  | cons {fs fs1 fs2 : FS} {s : Step} {l : List Step} (h : Did fs s fs1) (hl : Steps fs1 l fs2) : Steps fs (s :: l) fs2

theorem getLastD_append {α : Type} (a b : List α) (d : α) : (a ++ b).getLastD d = b.getLastD (a.getLastD d) := by
  induction a generalizing d with
  | nil => rfl
  | cons x a ih => rw [List.cons_append, List.getLastD_cons, ih, List.getLastD_cons]

theorem runSteps_did (l : List (Step × Int)) : ∀ (fs : FS) (answers : Answers), (runSteps fs answers l).2 = none →
    Steps fs (l.map (·.1)) ((runSteps fs answers l).1.getLastD fs) := by
  induction l with
  | nil => intro fs _ _; exact .nil fs
  | cons s l ih =>
    intro fs answers h
    simp only [runSteps] at h ⊢
    split at h
    · rename_i hok
      rw [if_pos hok]
      have := ih _ _ h
      rw [List.map_cons]
      refine .cons (exec_did hok) ?_
      show Steps _ _ (List.getLastD (_ ++ _) fs)
      rw [getLastD_append]
      exact this
    · cases h

theorem steps_append {fs fs2 : FS} {a b : List Step} (h : Steps fs (a ++ b) fs2) : ∃ fs1, Steps fs a fs1 ∧ Steps fs1 b fs2 := by
  induction a generalizing fs with
  | nil => exact ⟨fs, .nil fs, h⟩
  | cons s a ih =>
    cases h with
    | cons h hl =>
      obtain ⟨fs1, h1, h2⟩ := ih hl
      exact ⟨fs1, .cons h h1, h2⟩

theorem mkdirs_did {ps : List Path} : ∀ {fs fs' : FS}, Steps fs (ps.map .mkdir) fs' →
    (∀ p, (∃ l, fs.get p = some (.dir l)) → ∃ l, fs'.get p = some (.dir l)) ∧
    (∀ p ∈ ps, ∃ l, fs'.get p = some (.dir l)) ∧ ∀ p, p ∉ ps → fs'.get p = fs.get p := by
  induction ps with
  | nil => intro fs fs' h; cases h; exact ⟨fun _ h => h, by simp, fun _ _ => rfl⟩
  | cons q ps ih =>
    intro fs fs' h
    cases h with
    | cons h hl =>
      obtain ⟨h1, h2, h3⟩ := ih hl
      rcases h with ⟨hd, rfl⟩ | ⟨hn, rfl⟩
      · refine ⟨h1, ?_, fun p hp => h3 p (by simp at hp; exact hp.2)⟩
        intro p hp
        rcases List.mem_cons.1 hp with rfl | hp
        · exact h1 _ hd
        · exact h2 p hp
      · refine ⟨?_, ?_, ?_⟩
        · intro p hp
          refine h1 p ?_
          rw [get_put]
          split
          · exact ⟨true, rfl⟩
          · exact hp
        · intro p hp
          rcases List.mem_cons.1 hp with rfl | hp
          · exact h1 _ ⟨true, by rw [get_put, if_pos rfl]⟩
          · exact h2 p hp
        · intro p hp
          simp only [List.mem_cons, not_or] at hp
          rw [h3 p hp.2, get_put, if_neg hp.1]

/-- `none` for each place where something is replaced. -/
def pieces (pat : List Char) : Nat → List Char → List (Option Char)
  | _, [] => []
  | skip + 1, _ :: s => pieces pat skip s
  | 0, c :: s => if pat.isPrefixOf (c :: s) then none :: pieces pat (pat.length - 1) s else some c :: pieces pat 0 s

theorem replace_eq (pat new : List Char) (s : List Char) :
    ∀ skip, replace pat new skip s = (pieces pat skip s).flatMap fun | none => new | some c => [c] := by
  induction s with
  | nil => intro skip; cases skip <;> simp [replace, pieces]
  | cons c s ih =>
    intro skip
    cases skip with
    | succ k => rw [replace, pieces, ih]
    | zero =>
      rw [replace, pieces]
      split
      · rw [List.flatMap_cons, ih]
      · rw [List.flatMap_cons, ih]; rfl

theorem flatMap_some (new l : List Char) : (l.map some).flatMap (fun | none => new | some c => [c]) = l := by
  induction l with
  | nil => rfl
  | cons c l ih => rw [List.map_cons, List.flatMap_cons, ih]; rfl

/-- The manifest behind the name. -/
def afterName : String :=
  "\"\nversion = \"0.1.0\"\nedition = \"2021\"\n\n# See more keys and their definitions at https://doc.rust-lang.org/cargo/reference/manifest.html\n\n[lib]\ncrate-type = [\"cdylib\", \"rlib\"]\n\n[dependencies]\nvertigo = \"0.6\"\n"

theorem pieces_toml : pieces "my_app".toList 0 cargoToml.toList = "[package]\nname = \"".toList.map some ++ (none :: afterName.toList.map some) := by
  decide +kernel

theorem manifest_text (name : String) : manifest name = "[package]\nname = \"" ++ name ++ afterName := by
  delta manifest afterName
  exact Eq.refl _

theorem manifest_eq (name : String) : String.ofList (replace "my_app".toList name.toList 0 cargoToml.toList) = manifest name := by
  rw [replace_eq, pieces_toml, List.flatMap_append, List.flatMap_cons, flatMap_some, flatMap_some, manifest_text]
  generalize afterName = x
  generalize "[package]\nname = \"" = y
  apply String.toList_injective
  rw [String.toList_ofList, String.toList_append, String.toList_append, List.append_assoc]

theorem created {name : String} {t : Path} {fs fs' : FS} (hv : ¬ Occupied fs t) (h : Steps fs ((steps name t).map (·.1)) fs') : Created name t fs' := by
  have h0 : ∀ p, t <+: p → p ≠ t → fs.get p = none := fun p hp hne => by
    cases hg : fs.get p with
    | none => rfl
    | some n => exact absurd ⟨p, hp, hne, by simp [hg]⟩ hv
  have e : (steps name t).map (·.1) = t.inits.map Step.mkdir ++ (Step.write (t ++ ["Cargo.toml_"]) cargoToml :: ((t ++ ["src"]).inits.map Step.mkdir ++
      [.write (t ++ ["src", "lib.rs"]) libRs, .remove (t ++ ["Cargo.toml_"]), .write (t ++ ["Cargo.toml"]) (manifest name)])) := by
    simp only [steps, createDirAll, extract, manifest_eq, List.map_append, List.map_map, List.map_cons, List.map_nil]
    simp [Function.comp_def]
  rw [e] at h
  obtain ⟨fs1, h1, h⟩ := steps_append h
  cases h with
  | cons hw h =>
  obtain rfl : _ = _ := hw
  obtain ⟨fs3, h3, h⟩ := steps_append h
  cases h with
  | cons hw h =>
  obtain rfl : _ = _ := hw
  cases h with
  | cons hw h =>
  obtain rfl : _ = _ := hw
  cases h with
  | cons hw h =>
  obtain rfl : _ = _ := hw
  cases h
  obtain ⟨-, d1, k1⟩ := mkdirs_did h1
  obtain ⟨-, d3, k3⟩ := mkdirs_did h3
  simp only [List.mem_inits] at d1 k1 d3 k3
  constructor
  · obtain ⟨l, hl⟩ := d3 t ⟨_, rfl⟩
    exact ⟨l, by simp [get_put, get_del, hl]⟩
  · simp [get_put]
  · obtain ⟨l, hl⟩ := d3 (t ++ ["src"]) (List.prefix_refl _)
    exact ⟨l, by simp [get_put, get_del, hl]⟩
  · simp [get_put, get_del]
  · intro p hp hg
    by_cases e1 : p = t
    · exact .inl e1
    by_cases e2 : p = t ++ ["Cargo.toml"]
    · exact .inr (.inl e2)
    by_cases e3 : p = t ++ ["src"]
    · exact .inr (.inr (.inl e3))
    by_cases e4 : p = t ++ ["src", "lib.rs"]
    · exact .inr (.inr (.inr e4))
    exfalso
    by_cases e5 : p = t ++ ["Cargo.toml_"]
    · subst e5
      simp [get_put, get_del] at hg
    · rw [get_put, if_neg e2, get_del, if_neg e5, get_put, if_neg e4] at hg
      have n1 : ¬ p <+: t := fun h => e1 (List.IsPrefix.eq_of_length_le h (hp.length_le)).symm.symm
      have n3 : ¬ p <+: t ++ ["src"] := fun h => by
        rcases List.prefix_concat_iff.1 h with rfl | h
        · exact e3 rfl
        · exact n1 h
      rw [k3 p n3, get_put, if_neg e5, k1 p n1, h0 p hp e1] at hg
      exact hg rfl

/-! ### When nothing fails -/

theorem inits_concat (p : Path) (a : String) : (p ++ [a]).inits = p.inits ++ [p ++ [a]] := by
  rw [List.inits_append]
  simp

/-- The steps that are still to be done will be. -/
def Succeeds (fs : FS) (l : List (Step × Int)) : Prop := (runSteps fs [] l).2 = none

theorem succeeds_cons {fs : FS} {s : Step} {code : Int} {l : List (Step × Int)} (h : (s.exec fs none).2 = true)
    (hl : Succeeds ((s.exec fs none).1.getLastD fs) l) : Succeeds fs ((s, code) :: l) := by
  unfold Succeeds at hl ⊢
  simp only [runSteps, List.headD_nil, List.tail_nil, h, if_true]
  exact hl

/-- Directories: if what is on the way is a directory or not there, they are made. -/
theorem mkdirs_succeed (code : Int) (rest : List (Step × Int)) : ∀ (p : Path) (fs : FS), (∀ q, q <+: p → fs.get q = none ∨ ∃ l, fs.get q = some (.dir l)) →
    (∀ fs', (∀ q, q <+: p → ∃ l, fs'.get q = some (.dir l)) → (∀ q, ¬ q <+: p → fs'.get q = fs.get q) → Succeeds fs' rest) →
    Succeeds fs ((p.inits.map Step.mkdir).map (·, code) ++ rest) := by
  intro p
  induction p using List.reverseRecOn generalizing rest with
  | nil =>
    intro fs h hr
    show Succeeds fs ((Step.mkdir [], code) :: rest)
    rcases h [] (List.prefix_refl _) with hn | ⟨l, hl⟩
    · have e : (Step.mkdir []).exec fs none = ([fs.put [] (.dir true)], true) := by simp [Step.exec, hn]
      refine succeeds_cons (by rw [e]) ?_
      rw [e]
      refine hr _ (fun q hq => ⟨true, by
        show (fs.put [] _).get q = _
        rw [get_put, if_pos (List.prefix_nil.1 hq)]⟩) fun q hq => by
        show (fs.put [] _).get q = _
        rw [get_put, if_neg (by rintro rfl; exact hq (List.prefix_refl _))]
    · have e : (Step.mkdir []).exec fs none = ([fs], true) := by simp [Step.exec, hl]
      refine succeeds_cons (by rw [e]) ?_
      rw [e]
      exact hr _ (fun q hq => ⟨l, by rw [List.prefix_nil.1 hq]; exact hl⟩) fun q _ => rfl
  | append_singleton p a ih =>
    intro fs h hr
    rw [inits_concat, List.map_append, List.map_append, List.append_assoc]
    refine ih _ fs (fun q hq => h q (hq.trans ⟨[a], rfl⟩)) fun fs' hd hk => ?_
    show Succeeds fs' ((Step.mkdir (p ++ [a]), code) :: rest)
    have hnp : ¬ p ++ [a] <+: p := fun h => by have := h.length_le; simp at this; omega
    rcases h (p ++ [a]) (List.prefix_refl _) with hn | ⟨l, hl⟩
    · have hn' : fs'.get (p ++ [a]) = none := by rw [hk _ hnp, hn]
      have e : (Step.mkdir (p ++ [a])).exec fs' none = ([fs'.put (p ++ [a]) (.dir true)], true) := by
        simp only [Step.exec, hn']
        rw [if_pos ⟨trivial, .inr (isDir_iff.2 (by rw [List.dropLast_concat]; exact hd p (List.prefix_refl _)))⟩]
      refine succeeds_cons (by rw [e]) ?_
      rw [e]
      refine hr _ (fun q hq => ?_) fun q hq => ?_
      · show ∃ l, (fs'.put (p ++ [a]) _).get q = _
        rw [get_put]
        rcases List.prefix_concat_iff.1 hq with rfl | hq
        · exact ⟨true, by simp⟩
        · obtain ⟨l, hl⟩ := hd q hq
          exact ⟨l, by rw [if_neg (by rintro rfl; exact hnp hq), hl]⟩
      · show (fs'.put (p ++ [a]) _).get q = _
        rw [get_put, if_neg (by rintro rfl; exact hq (List.prefix_refl _)), hk q fun h => hq (h.trans ⟨[a], rfl⟩)]
    · have hl' : fs'.get (p ++ [a]) = some (.dir l) := by rw [hk _ hnp, hl]
      have e : (Step.mkdir (p ++ [a])).exec fs' none = ([fs'], true) := by simp [Step.exec, hl']
      refine succeeds_cons (by rw [e]) ?_
      rw [e]
      refine hr _ (fun q hq => ?_) fun q hq => hk q fun h => hq (h.trans ⟨[a], rfl⟩)
      rcases List.prefix_concat_iff.1 hq with rfl | hq
      · exact ⟨l, hl'⟩
      · exact hd q hq

theorem write_succeeds {fs : FS} {p : Path} {c : String} {code : Int} {rest : List (Step × Int)} (hf : ¬ ∃ l, fs.get p = some (.dir l))
    (hd : ∃ l, fs.get p.dropLast = some (.dir l)) (hr : Succeeds (fs.put p (.file c)) rest) : Succeeds fs ((.write p c, code) :: rest) := by
  have e : (Step.write p c).exec fs none = ([fs.put p (.file ""), fs.put p (.file c)], true) := by
    simp only [Step.exec]
    rcases hg : fs.get p with _ | _ | l
    · simp [isDir_iff.2 hd]
    · simp [isDir_iff.2 hd]
    · exact absurd ⟨l, hg⟩ hf
  refine succeeds_cons (by rw [e]) ?_
  rw [e]
  exact hr

theorem steps_succeed (name : String) {t : Path} {fs : FS} (hv : ¬ Occupied fs t) (hw : ∀ q, q <+: t → fs.get q = none ∨ ∃ l, fs.get q = some (.dir l)) :
    Succeeds fs (steps name t) := by
  have h0 : ∀ p, t <+: p → p ≠ t → fs.get p = none := fun p hp hne => by
    cases hg : fs.get p with
    | none => rfl
    | some n => exact absurd ⟨p, hp, hne, by simp [hg]⟩ hv
  have e : steps name t = (t.inits.map Step.mkdir).map (·, -2) ++ ((Step.write (t ++ ["Cargo.toml_"]) cargoToml, -3) ::
      (((t ++ ["src"]).inits.map Step.mkdir).map (·, -3) ++ [(.write (t ++ ["src", "lib.rs"]) libRs, -3), (.remove (t ++ ["Cargo.toml_"]), -4),
        (.write (t ++ ["Cargo.toml"]) (manifest name), -4)])) := by
    simp only [steps, createDirAll, extract, manifest_eq, List.map_append, List.map_cons, List.map_nil]
    simp
  rw [e]
  refine mkdirs_succeed _ _ t fs hw fun fs1 hd hk => ?_
  have below : ∀ a r, fs1.get (t ++ a :: r) = none := fun a r => by
    rw [hk _ fun h => by have := h.length_le; simp at this; omega]
    exact h0 _ ⟨_, rfl⟩ (by simp)
  have hdt := hd t (List.prefix_refl _)
  refine write_succeeds (by rw [below]; simp) (by rw [List.dropLast_concat]; exact hdt) ?_
  refine mkdirs_succeed _ _ (t ++ ["src"]) _ (fun q hq => ?_) fun fs3 hd3 hk3 => ?_
  · rw [get_put]
    rcases List.prefix_concat_iff.1 hq with rfl | hq
    · rw [if_neg (by simp)]; exact .inl (below _ _)
    · rw [if_neg (by rintro rfl; have := hq.length_le; simp at this; omega)]
      exact .inr (hd q hq)
  · have g3 : ∀ q, ¬ q <+: t ++ ["src"] → fs3.get q = if q = t ++ ["Cargo.toml_"] then some (.file cargoToml) else fs1.get q := fun q hq => by
      rw [hk3 q hq, get_put]
    have n1 : ¬ t ++ ["src", "lib.rs"] <+: t ++ ["src"] := fun h => by have := h.length_le; simp at this
    have n2 : ¬ t ++ ["Cargo.toml_"] <+: t ++ ["src"] := fun h => by
      have := List.IsPrefix.eq_of_length h (by simp)
      simp at this
    have n3 : ¬ t ++ ["Cargo.toml"] <+: t ++ ["src"] := fun h => by
      have := List.IsPrefix.eq_of_length h (by simp)
      simp at this
    have hdt3 : ∃ l, fs3.get t = some (.dir l) := hd3 t ⟨_, rfl⟩
    refine write_succeeds (by rw [g3 _ n1, if_neg (by simp), below]; simp) ?_ ?_
    · rw [show t ++ ["src", "lib.rs"] = (t ++ ["src"]) ++ ["lib.rs"] by simp, List.dropLast_concat]
      exact hd3 _ (List.prefix_refl _)
    · have gc : (fs3.put (t ++ ["src", "lib.rs"]) (.file libRs)).get (t ++ ["Cargo.toml_"]) = some (.file cargoToml) := by
        rw [get_put, if_neg (by simp), g3 _ n2, if_pos rfl]
      have er : (Step.remove (t ++ ["Cargo.toml_"])).exec (fs3.put (t ++ ["src", "lib.rs"]) (.file libRs)) none =
          ([(fs3.put (t ++ ["src", "lib.rs"]) (.file libRs)).del (t ++ ["Cargo.toml_"])], true) := by
        simp only [Step.exec, gc, if_true]
      refine succeeds_cons (by rw [er]) ?_
      rw [er]
      refine write_succeeds ?_ ?_ rfl
      · show ¬ ∃ l, ((fs3.put _ _).del _).get _ = _
        rw [get_del, if_neg (by simp), get_put, if_neg (by simp), g3 _ n3, if_neg (by simp), below]
        simp
      · show ∃ l, ((fs3.put _ _).del _).get _ = _
        rw [List.dropLast_concat, get_del, if_neg (by simp), get_put, if_neg (by simp)]
        exact hdt3

/-! ## Theorems -/

/-- **C77, nothing is lost, part.** At every moment, also if a step fails or the command is killed: what was there before is as it was, and everything new is in the
directory of the project or is a directory on the way to it. Missing: directories that may not be listed, see the violation. -/
theorem C77_kept_partial (name : String) (target : Path) (fs : FS) (hw : fs.WF) (hh : ¬ Hidden fs target) (answers : Answers) :
    ∀ fs' ∈ (runNew name target fs answers).1, Added target fs fs' := by
  unfold runNew
  split
  · intro fs' hf
    obtain rfl := List.mem_singleton.1 hf
    exact added_refl _ _
  · rename_i hr
    intro fs' hf
    rcases List.mem_cons.1 hf with rfl | hf
    · exact added_refl _ _
    · exact runSteps_added (vacant hw hh hr) _ (steps_allowed name target) fs answers (added_refl _ _) _ hf

/-- **C77, a directory with something in it.** Nothing is done, and the command fails with −1. -/
theorem C77_occupied (name : String) (target : Path) (fs : FS) (hw : fs.WF) (hd : fs.get target = some (.dir true)) (ho : Occupied fs target) (answers : Answers) :
    runNew name target fs answers = ([fs], some (-1)) := by
  unfold runNew
  rw [(readDir_true hw hd).2 ho]

/-- **C77, the project.** If the command reports success, the project is there, with its name in the manifest, and nothing else is in its directory; and it does report success if nothing is in
the directory, no file is in the way and no step fails. -/
theorem C77_created (name : String) (target : Path) (fs : FS) (hw : fs.WF) (hh : ¬ Hidden fs target) :
    (∀ answers, (runNew name target fs answers).2 = none → ∃ fs', (runNew name target fs answers).1.getLast? = some fs' ∧ Created name target fs') ∧
    (¬ Occupied fs target → (∀ q c, q <+: target → fs.get q ≠ some (.file c)) → (runNew name target fs []).2 = none) := by
  constructor
  · intro answers h
    unfold runNew at h ⊢
    split
    · rename_i hr
      rw [hr] at h
      cases h
    · rename_i hr
      have h : (runSteps fs answers (steps name target)).2 = none := by
        revert h
        split
        · exact absurd (by assumption) hr
        · exact id
      have := runSteps_did _ fs answers h
      refine ⟨_, ?_, created (vacant hw hh hr) this⟩
      simp only [List.getLast?_cons]
      cases (runSteps fs answers (steps name target)).1 using List.reverseRecOn with
      | nil => rfl
      | append_singleton l x => simp [List.getLastD_eq_getLast?]
  · intro hv hq
    unfold runNew
    split
    · rename_i hr
      have : fs.get target = some (.dir true) := by
        unfold FS.readDir at hr
        split at hr
        · assumption
        · cases hr
      exact absurd ((readDir_true hw this).1 hr) hv
    · refine steps_succeed name hv fun q hq' => ?_
      rcases hg : fs.get q with _ | c | l
      · exact .inl rfl
      · exact absurd hg (hq q c hq')
      · exact .inr ⟨l, rfl⟩

/-- A home directory with a project in a directory that may be entered and written, but not listed. -/
def secret : FS :=
  [([], .dir true), (["home"], .dir true), (["home", "app"], .dir false), (["home", "app", "src"], .dir true), (["home", "app", "src", "lib.rs"], .file "fn main() {}")]

theorem wf_of {fs : FS} (h : ∀ e ∈ fs, e.1 = [] ∨ ∃ l, fs.get e.1.dropLast = some (.dir l)) : fs.WF where
  parent := fun p n hp hne => by
    obtain ⟨e, he, rfl⟩ := get_mem hp
    exact (h e he).resolve_left hne

theorem secret_wf : secret.WF := wf_of (by
  intro e he
  simp only [secret, List.mem_cons, List.not_mem_nil, or_false] at he
  rcases he with rfl | rfl | rfl | rfl | rfl
  · exact .inl rfl
  · exact .inr ⟨true, rfl⟩
  · exact .inr ⟨true, rfl⟩
  · exact .inr ⟨false, rfl⟩
  · exact .inr ⟨true, rfl⟩)

/-- **C77, violated.** If the directory is there but may not be listed, the error of `read_dir` is ignored: files in it are overwritten, and the command reports success. -/
theorem C77_kept_violated : ∃ (fs : FS) (target : Path) (fs' : FS), fs.WF ∧ Occupied fs target ∧
    fs.get (target ++ ["src", "lib.rs"]) = some (.file "fn main() {}") ∧
    (runNew "app" target fs []).1.getLast? = some fs' ∧ (runNew "app" target fs []).2 = none ∧
    fs'.get (target ++ ["src", "lib.rs"]) = some (.file libRs) ∧ libRs ≠ "fn main() {}" := by
  refine ⟨secret, ["home", "app"], (runNew "app" ["home", "app"] secret []).1.getLastD [], secret_wf,
    ⟨["home", "app", "src"], ⟨["src"], rfl⟩, by decide, by decide⟩, by decide, ?_, by decide +kernel, by decide +kernel, by decide +kernel⟩
  rfl

/-! ## Cases -/

/-- An empty home directory. -/
def home : FS := [([], .dir true), (["home"], .dir true), (["home", "notes.txt"], .file "milk")]

theorem home_wf : home.WF := wf_of (by
  intro e he
  simp only [home, List.mem_cons, List.not_mem_nil, or_false] at he
  rcases he with rfl | rfl | rfl
  · exact .inl rfl
  · exact .inr ⟨true, rfl⟩
  · exact .inr ⟨true, rfl⟩)

/-- The project is made, and the notes are kept. -/
example : ∃ fs', (runNew "shop" ["home", "work", "shop"] home []).1.getLast? = some fs' ∧ Created "shop" ["home", "work", "shop"] fs' ∧
    fs'.get ["home", "notes.txt"] = some (.file "milk") := by
  have hh : ¬ Hidden home ["home", "work", "shop"] := by unfold Hidden; decide
  have hn : (runNew "shop" ["home", "work", "shop"] home []).2 = none := by decide +kernel
  obtain ⟨fs', h1, h2⟩ := (C77_created "shop" ["home", "work", "shop"] home home_wf hh).1 [] hn
  exact ⟨fs', h1, h2, (C77_kept_partial "shop" _ home home_wf hh [] fs' (List.mem_of_getLast? h1)).kept _ _ (by decide)⟩

/-- The disk is full while the manifest is written: a part of a file is in the new directory, nothing is lost. -/
example : (runNew "shop" ["home", "shop"] home [none, none, none, some 5]).2 = some (-3) ∧
    ∀ fs' ∈ (runNew "shop" ["home", "shop"] home [none, none, none, some 5]).1, fs'.get ["home", "notes.txt"] = some (.file "milk") :=
  ⟨by decide +kernel, fun fs' h => (C77_kept_partial "shop" _ home home_wf (by unfold Hidden; decide) _ fs' h).kept _ _ (by decide)⟩

/-- The home directory itself is not empty. -/
example : runNew "home" ["home"] home [] = ([home], some (-1)) :=
  C77_occupied "home" ["home"] home home_wf rfl ⟨["home", "notes.txt"], ⟨["notes.txt"], rfl⟩, by decide, by decide⟩ []

end Verif.Assets.New

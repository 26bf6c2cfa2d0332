import Verif.Assets.Build
import Mathlib.Data.List.Infix
/-!
# C79: which program `vertigo build` publishes

Model of `run_with_ws` of crates/vertigo-cli/src/build/build_run.rs with the choice of the package (cargo_workspace.rs) and the places where files are looked for
(find_target.rs, cargo_build.rs), on a file system that may hold files of earlier builds. `Verif.Assets.Build` takes the files of the build as given; this file
is about where they come from.

Paths are absolute and resolved: lists of names from the root. Directories are where files are; a directory that cannot be cleaned is a parameter. Cargo,
rustup and `wasm-opt` are parameters. `index.json` is the result of a function of its two fields.
-/
namespace Verif.Assets.Program
open Verif.Assets (Name Bytes hashedName Index)

abbrev Path := List Name

/-- The files. -/
abbrev FS := Path → Option Bytes

/-! ## Model -/

/-- cargo_workspace.rs:22-25 -/
structure Target where
  kind : List String

/-- cargo_workspace.rs:14-20 (without the path of the manifest) -/
structure Package where
  id : String
  name : Name
  targets : List Target

/-- cargo_workspace.rs:6-12, as cargo prints it. -/
structure Workspace where
  packages : List Package
  targetDirectory : Path
  members : List String

/-- cargo_workspace.rs:64-70 (`is_cdylib`) -/
def Package.isCdylib (p : Package) : Bool := p.targets.any fun t => t.kind.any (· == "cdylib")

/-- cargo_workspace.rs:68-84 (`get_workspace`): only local packages are kept. -/
def Workspace.retain (ws : Workspace) : Workspace := { ws with packages := ws.packages.filter fun p => ws.members.contains p.id }

/-- cargo_workspace.rs:28-42 (`infer_package_name`), over the members from one on. -/
def infer (packages : List Package) : List String → Option Name
  | [] => none
  | m :: ms =>
      match packages.find? (fun p => p.id == m) with
      | some p => if p.isCdylib then some p.name else infer packages ms
      | none => infer packages ms

/-- build_opts.rs:18-27, with the destination as a resolved path, and the current directory. -/
structure Opts where
  packageName : Option Name
  publicPath : List Char
  disableWasmOpt : Bool
  sourceMap : Bool
  destDir : Path
  cwd : Path

/-- The programs that are run. -/
structure Tools where
  /-- the target is installed, or could be -/
  rustup : Bool
  /-- for a package and the files that are there: whether the build succeeds, and the files written below the target directory -/
  cargo : Name → FS → Bool × List (Path × Bytes)
  /-- what `wasm-opt` makes of a file; `none`: not installed, or it failed -/
  wasmOpt : Bytes → Option Bytes
  /-- the source map for the name of the script -/
  remap : Bytes → Name → Bytes
  /-- `serde_json::to_string_pretty` -/
  indexText : Index → Bytes
  /-- the destination can be removed -/
  removable : Bool

def FS.removeDir (fs : FS) (dir : Path) : FS := fun p => if dir <+: p then none else fs p
def FS.removeFile (fs : FS) (file : Path) : FS := fun p => if p = file then none else fs p
def FS.save (fs : FS) (file : Path) (content : Bytes) : FS := fun p => if p = file then some content else fs p

/-- What cargo writes below the target directory. -/
def FS.write (fs : FS) (dir : Path) : List (Path × Bytes) → FS
  | [] => fs
  | (p, content) :: rest => FS.write (fs.save (dir ++ p) content) dir rest

inductive Outcome where
  | ok
  | err (code : Int)
  | exit
  | panic
  deriving DecidableEq

structure Result where
  outcome : Outcome
  files : FS
  /-- the packages that cargo was asked to build -/
  built : List Name

/-- `str::replace('-', "_")` -/
def underscored (name : Name) : Name := name.map fun c => if c = '-' then '_' else c

def release : Path := ["wasm32-unknown-unknown".toList, "release".toList]

/-- find_target.rs:5-11: relative to the current directory. -/
def wasmInTarget (cwd : Path) (package : Name) : Path := cwd ++ "target".toList :: (release ++ [underscored package ++ ".wasm".toList])

/-- find_target.rs:13-19 -/
def rlibInTarget (cwd : Path) (package : Name) : Path :=
  cwd ++ "target".toList :: (release ++ ["deps".toList, "lib".toList ++ underscored package ++ ".rlib".toList])

/-- wasm_path.rs:51-62 (`save_with_hash`) in the destination; `none`: a panic. -/
def saveHashed (fs : FS) (dest : Path) (name : Name) (content : Bytes) : Option (FS × Name) :=
  (hashedName name content).map fun n => (fs.save (dest ++ [n]) content, n)

/-- build_run.rs:113-122: the files of a directory are copied. -/
def copyAll (fs : FS) (src dest : Path) : FS := fun p =>
  match p.getLast? with
  | some n => if p = dest ++ [n] then (match fs (src ++ [n]) with | some content => some content | none => fs p) else fs p
  | none => fs p

/-- build_run.rs:80-98: the program is looked for, optimized or copied. -/
def saveProgram (opts : Opts) (tools : Tools) (package : Name) (fs : FS) : Option (FS × Name) :=
  let name := underscored package ++ ".wasm".toList
  let found := fs (wasmInTarget opts.cwd package)
  match (if opts.disableWasmOpt then none else found.bind tools.wasmOpt) with
  | some content =>
      (saveHashed (fs.save (opts.destDir ++ [name]) content) opts.destDir name content).map fun x => (x.1.removeFile (opts.destDir ++ [name]), x.2)
  | none =>
      match found with
      | some content => saveHashed fs opts.destDir name content
      | none => none

/-- build_run.rs:68-78: the source map, if it is asked for. -/
def saveMap (opts : Opts) (tools : Tools) (scriptName : Name) (map : Option Bytes) (fs : FS) : FS :=
  match map with
  | some text => fs.save (opts.destDir ++ ["wasm_run.js.map".toList]) (tools.remap text scriptName)
  | none => fs

/-- build_run.rs:56-124: what follows the run of cargo. -/
def publish (opts : Opts) (tools : Tools) (ws : Workspace) (package : Name) (fs : FS) : Outcome × FS :=
  let statics := ws.targetDirectory ++ (release ++ ["static".toList])
  match fs (statics ++ ["wasm_run.js".toList]) with
  | none => (.panic, fs)
  | some script =>
      match saveHashed fs opts.destDir "wasm_run.js".toList script with
      | none => (.panic, fs)
      | some (fs, scriptName) =>
          match (if opts.sourceMap then (fs (statics ++ ["wasm_run.js.map".toList])).map some else some none) with
          | none => (.panic, fs)
          | some map =>
              let fs := saveMap opts tools scriptName map fs
              match saveProgram opts tools package fs with
              | none => (.panic, fs)
              | some (fs, wasmName) =>
                  let index : Index := ⟨opts.publicPath ++ '/' :: scriptName, opts.publicPath ++ '/' :: wasmName⟩
                  let fs := fs.save (opts.destDir ++ ["index.json".toList]) (tools.indexText index)
                  (.ok, copyAll fs (statics ++ ["included".toList]) opts.destDir)

/-- build_run.rs:21-125 (`run_with_ws`), after `get_workspace`. -/
def run (opts : Opts) (tools : Tools) (ws : Workspace) (fs : FS) : Result :=
  match (match opts.packageName with | some name => some name | none => infer ws.packages ws.members) with
  | none => ⟨.err (-1), fs, []⟩
  | some package =>
      if !tools.rustup then ⟨.exit, fs, []⟩
      else if !tools.removable then ⟨.panic, fs, []⟩
      else
        let fs := fs.removeDir opts.destDir
        let fs := fs.removeFile (rlibInTarget opts.cwd package)
        let (success, written) := tools.cargo package fs
        let fs := fs.write ws.targetDirectory written
        if success then
          let (outcome, fs) := publish opts tools ws package fs
          ⟨outcome, fs, [package]⟩
        else ⟨.err (-2), fs, [package]⟩

/-- build_run.rs:15-19 -/
def vertigoBuild (opts : Opts) (tools : Tools) (metadata : Workspace) (fs : FS) : Result := run opts tools metadata.retain fs

/-! ## Specification -/

/-- A member of the workspace that is built to a library for other languages: that is, a program for a page. -/
def IsProgram (ws : Workspace) (p : Package) : Prop :=
  p ∈ ws.packages ∧ p.id ∈ ws.members ∧ ∃ t ∈ p.targets, "cdylib" ∈ t.kind

/-- The name of a file that the compiler gives to a package without a name of its own for the library. -/
def wasmName (package : Name) : Name := (package.map fun c => if c = '-' then '_' else c) ++ ".wasm".toList

/-- Cargo has just built `program` from the package: it succeeded, and the last it wrote to the file of the package is this. -/
def Compiled (cargo : Bool × List (Path × Bytes)) (package : Name) (program : Bytes) : Prop :=
  cargo.1 = true ∧ ∃ before after, cargo.2 = before ++ (["wasm32-unknown-unknown".toList, "release".toList, wasmName package], program) :: after ∧
    ∀ w ∈ after, w.1 ≠ ["wasm32-unknown-unknown".toList, "release".toList, wasmName package]

/-! ## Proofs: the choice of the package -/

theorem cdylib_iff (p : Package) : p.isCdylib = true ↔ ∃ t ∈ p.targets, "cdylib" ∈ t.kind := by
  simp [Package.isCdylib, List.any_eq_true]

theorem infer_some {packages : List Package} {members : List String} {x : Name} (h : infer packages members = some x) :
    ∃ p pre post, packages.find? (fun q => q.id == p.id) = some p ∧ p.isCdylib = true ∧ p.name = x ∧ members = pre ++ p.id :: post ∧
      ∀ m ∈ pre, ∀ q, packages.find? (fun r => r.id == m) = some q → q.isCdylib = false := by
  induction members with
  | nil => cases h
  | cons m ms ih =>
    simp only [infer] at h
    split at h
    · rename_i p hp
      have hid : p.id = m := by have := List.find?_some hp; simpa using this
      split at h
      · rename_i hc
        cases h
        exact ⟨p, [], ms, by rw [hid]; exact hp, hc, rfl, by rw [hid]; rfl, by simp⟩
      · rename_i hc
        obtain ⟨p', pre, post, h1, h2, h3, h4, h5⟩ := ih h
        refine ⟨p', m :: pre, post, h1, h2, h3, by rw [h4]; rfl, ?_⟩
        intro x hx q hq
        rcases List.mem_cons.mp hx with rfl | hx
        · rw [hp] at hq; cases hq; simpa using hc
        · exact h5 x hx q hq
    · rename_i hp
      obtain ⟨p', pre, post, h1, h2, h3, h4, h5⟩ := ih h
      refine ⟨p', m :: pre, post, h1, h2, h3, by rw [h4]; rfl, ?_⟩
      intro x hx q hq
      rcases List.mem_cons.mp hx with rfl | hx
      · rw [hp] at hq; cases hq
      · exact h5 x hx q hq

theorem infer_none {packages : List Package} {members : List String} (h : infer packages members = none) :
    ∀ m ∈ members, ∀ q, packages.find? (fun r => r.id == m) = some q → q.isCdylib = false := by
  induction members with
  | nil => simp
  | cons m ms ih =>
    simp only [infer] at h
    intro x hx q hq
    split at h
    · rename_i p hp
      split at h
      · cases h
      · rename_i hc
        rcases List.mem_cons.mp hx with rfl | hx
        · rw [hp] at hq; cases hq; simpa using hc
        · exact ih h x hx q hq
    · rename_i hp
      rcases List.mem_cons.mp hx with rfl | hx
      · rw [hp] at hq; cases hq
      · exact ih h x hx q hq

/-- With different ids, the package of an id is found. -/
theorem find_id {packages : List Package} (hu : (packages.map (·.id)).Nodup) {p : Package} (hp : p ∈ packages) :
    packages.find? (fun q => q.id == p.id) = some p := by
  induction packages with
  | nil => cases hp
  | cons q qs ih =>
    rw [List.map_cons, List.nodup_cons] at hu
    rw [List.find?_cons]
    rcases List.mem_cons.mp hp with rfl | hp
    · simp
    · have : (q.id == p.id) = false := by
        rw [beq_eq_false_iff_ne]
        intro e
        exact hu.1 (e ▸ List.mem_map_of_mem hp)
      rw [this]
      exact ih hu.2 hp

theorem retain_nodup {ws : Workspace} (hu : (ws.packages.map (·.id)).Nodup) : (ws.retain.packages.map (·.id)).Nodup :=
  List.Nodup.sublist (List.Sublist.map _ List.filter_sublist) hu

theorem mem_retain {ws : Workspace} {p : Package} : p ∈ ws.retain.packages ↔ p ∈ ws.packages ∧ p.id ∈ ws.members := by
  simp [Workspace.retain, List.mem_filter]

theorem program_found {ws : Workspace} (hu : (ws.packages.map (·.id)).Nodup) {p : Package} (hp : IsProgram ws p) :
    ws.retain.packages.find? (fun q => q.id == p.id) = some p ∧ p.isCdylib = true :=
  ⟨find_id (retain_nodup hu) (mem_retain.mpr ⟨hp.1, hp.2.1⟩), (cdylib_iff p).mpr hp.2.2⟩

/-! ## Proofs: the files -/

theorem save_same (fs : FS) (p : Path) (c : Bytes) : fs.save p c p = some c := by simp [FS.save]

theorem save_other {fs : FS} {p q : Path} {c : Bytes} (h : q ≠ p) : fs.save p c q = fs q := by simp [FS.save, h]

theorem write_outside {fs : FS} {dir : Path} {ws : List (Path × Bytes)} {p : Path} (h : ¬ dir <+: p) : fs.write dir ws p = fs p := by
  induction ws generalizing fs with
  | nil => rfl
  | cons w ws ih =>
    obtain ⟨q, c⟩ := w
    simp only [FS.write]
    rw [ih, save_other]
    rintro rfl
    exact h (List.prefix_append ..)

theorem write_last {fs : FS} {dir : Path} {before after : List (Path × Bytes)} {q : Path} {c : Bytes} (h : ∀ w ∈ after, w.1 ≠ q) :
    fs.write dir (before ++ (q, c) :: after) (dir ++ q) = some c := by
  induction before generalizing fs with
  | nil =>
    simp only [List.nil_append, FS.write]
    have : ∀ (g : FS), g.write dir after (dir ++ q) = g (dir ++ q) := by
      intro g
      induction after generalizing g with
      | nil => rfl
      | cons w ws ih =>
        obtain ⟨r, c'⟩ := w
        simp only [FS.write]
        rw [ih (fun x hx => h x (List.mem_cons_of_mem _ hx)), save_other]
        intro e
        exact h (r, c') (List.mem_cons_self ..) (List.append_cancel_left e).symm
    rw [this, save_same]
  | cons w ws ih =>
    obtain ⟨r, c'⟩ := w
    simp only [List.cons_append, FS.write]
    exact ih

theorem copyAll_outside {fs : FS} {src dest p : Path} (h : ¬ dest <+: p) : copyAll fs src dest p = fs p := by
  unfold copyAll
  split
  · split
    · rename_i e; exact absurd (e ▸ List.prefix_append ..) h
    · rfl
  · rfl

theorem copyAll_in (fs : FS) (src dest : Path) (n : Name) : copyAll fs src dest (dest ++ [n]) =
    match fs (src ++ [n]) with | some content => some content | none => fs (dest ++ [n]) := by
  unfold copyAll
  simp

theorem copyAll_src (fs : FS) (src dest : Path) (n : Name) : copyAll fs src dest (src ++ [n]) = fs (src ++ [n]) := by
  unfold copyAll
  simp only [List.getLast?_append, List.getLast?_singleton, Option.some_or]
  split
  · split
    · rename_i h; exact h.symm
    · rfl
  · rfl

theorem saveHashed_some {fs fs' : FS} {dest : Path} {name n : Name} {c : Bytes} (h : saveHashed fs dest name c = some (fs', n)) :
    hashedName name c = some n ∧ fs' = fs.save (dest ++ [n]) c := by
  unfold saveHashed at h
  simp only [Option.map_eq_some_iff, Prod.mk.injEq] at h
  obtain ⟨x, h1, h2, rfl⟩ := h
  exact ⟨h1, h2.symm⟩

theorem in_dest {dest p : Path} (h : ¬ dest <+: p) (n : Name) : p ≠ dest ++ [n] := by
  rintro rfl
  exact h (List.prefix_append ..)

theorem saveProgram_outside {opts : Opts} {tools : Tools} {package : Name} {fs fs' : FS} {n : Name}
    (h : saveProgram opts tools package fs = some (fs', n)) {p : Path} (hp : ¬ opts.destDir <+: p) : fs' p = fs p := by
  unfold saveProgram at h
  simp only at h
  split at h
  · simp only [Option.map_eq_some_iff, Prod.mk.injEq, Prod.exists] at h
    obtain ⟨g, m, h1, rfl, rfl⟩ := h
    obtain ⟨_, rfl⟩ := saveHashed_some h1
    simp only [FS.removeFile]
    rw [if_neg (in_dest hp _), save_other (in_dest hp _), save_other (in_dest hp _)]
  · split at h
    · obtain ⟨_, rfl⟩ := saveHashed_some h
      rw [save_other (in_dest hp _)]
    · cases h

theorem saveMap_outside {opts : Opts} {tools : Tools} {script : Name} {map : Option Bytes} {fs : FS} {p : Path} (hp : ¬ opts.destDir <+: p) :
    saveMap opts tools script map fs p = fs p := by
  cases map with
  | none => rfl
  | some t => exact save_other (in_dest hp _)

theorem publish_outside {opts : Opts} {tools : Tools} {ws : Workspace} {package : Name} {fs : FS} {p : Path} (hp : ¬ opts.destDir <+: p) :
    (publish opts tools ws package fs).2 p = fs p := by
  unfold publish
  simp only
  split
  · rfl
  · split
    · rfl
    · rename_i h1
      obtain ⟨_, rfl⟩ := saveHashed_some h1
      split
      · exact save_other (in_dest hp _)
      · split
        · exact (saveMap_outside hp).trans (save_other (in_dest hp _))
        · rename_i h3
          simp only
          rw [copyAll_outside hp, save_other (in_dest hp _), saveProgram_outside h3 hp, saveMap_outside hp, save_other (in_dest hp _)]

/-- What is made of the program that is found. -/
def published (opts : Opts) (tools : Tools) (found : Bytes) : Bytes :=
  if opts.disableWasmOpt then found else (tools.wasmOpt found).getD found

theorem ext_wasm {package n : Name} {c : Bytes} (h : hashedName (underscored package ++ ".wasm".toList) c = some n) :
    n ≠ underscored package ++ ".wasm".toList := by
  obtain ⟨s, e, h1, h2, h3⟩ := hashedName_eq h
  rw [h1, h3]
  intro e'
  have := congrArg List.length e'
  simp only [List.length_append, List.length_cons] at this
  omega

theorem saveProgram_in {opts : Opts} {tools : Tools} {package : Name} {fs fs' : FS} {n : Name}
    (h : saveProgram opts tools package fs = some (fs', n)) : ∃ found, fs (wasmInTarget opts.cwd package) = some found ∧
      hashedName (underscored package ++ ".wasm".toList) (published opts tools found) = some n ∧
      fs' (opts.destDir ++ [n]) = some (published opts tools found) := by
  unfold saveProgram at h
  simp only at h
  cases hf : fs (wasmInTarget opts.cwd package) with
  | none =>
    rw [hf] at h
    simp at h
  | some found =>
    refine ⟨found, rfl, ?_⟩
    rw [hf] at h
    simp only [Option.bind_some] at h
    split at h
    · rename_i c hc
      have hp : published opts tools found = c := by
        unfold published
        split at hc
        · cases hc
        · rename_i hd; rw [if_neg hd, hc]; rfl
      simp only [Option.map_eq_some_iff, Prod.mk.injEq, Prod.exists] at h
      obtain ⟨g, m, h1, rfl, rfl⟩ := h
      obtain ⟨hn, rfl⟩ := saveHashed_some h1
      rw [hp]
      refine ⟨hn, ?_⟩
      simp only [FS.removeFile]
      rw [if_neg, save_same]
      intro e
      have := List.append_cancel_left e
      simp only [List.cons.injEq, and_true] at this
      exact ext_wasm hn this
    · rename_i hc
      have hp : published opts tools found = found := by
        unfold published
        split at hc
        · rename_i hd; rw [if_pos hd]
        · rename_i hd; rw [if_neg hd, hc]; rfl
      rw [hp]
      obtain ⟨hn, rfl⟩ := saveHashed_some h
      exact ⟨hn, save_same ..⟩

theorem last_ne {a b : Path} (h : a ≠ b) (m n : Name) : a ++ [m] ≠ b ++ [n] := fun e => h (List.append_inj' e rfl).1

theorem wasmInTarget_eq (cwd : Path) (package : Name) :
    wasmInTarget cwd package = cwd ++ "target".toList :: release ++ [underscored package ++ ".wasm".toList] := by
  unfold wasmInTarget
  generalize "target".toList = t
  generalize release = r
  simp

theorem publish_ok {opts : Opts} {tools : Tools} {ws : Workspace} {package : Name} {fs : FS}
    (h : (publish opts tools ws package fs).1 = .ok) (hdest : opts.destDir ≠ opts.cwd ++ "target".toList :: release) :
    ∃ found script n, fs (wasmInTarget opts.cwd package) = some found ∧
      hashedName (underscored package ++ ".wasm".toList) (published opts tools found) = some n ∧
      ((∀ c, (publish opts tools ws package fs).2 (ws.targetDirectory ++ (release ++ ["static".toList]) ++ ["included".toList] ++ [n]) = some c →
          c = published opts tools found) →
        (publish opts tools ws package fs).2 (opts.destDir ++ [n]) = some (published opts tools found)) ∧
      ((publish opts tools ws package fs).2 (ws.targetDirectory ++ (release ++ ["static".toList]) ++ ["included".toList] ++ ["index.json".toList]) = none →
        (publish opts tools ws package fs).2 (opts.destDir ++ ["index.json".toList]) =
          some (tools.indexText ⟨opts.publicPath ++ '/' :: script, opts.publicPath ++ '/' :: n⟩)) := by
  unfold publish at h ⊢
  simp only at h ⊢
  split at h
  · cases h
  · rename_i script hs
    split at h
    · cases h
    · rename_i fs1 scriptName h1
      obtain ⟨_, rfl⟩ := saveHashed_some h1
      split at h
      · cases h
      · rename_i map hmap
        split at h
        · cases h
        · rename_i fs3 n h3
          simp only
          obtain ⟨found, hf, hn, hd⟩ := saveProgram_in h3
          have hW : ∀ m, wasmInTarget opts.cwd package ≠ opts.destDir ++ [m] := fun m => by
            rw [wasmInTarget_eq]; exact (last_ne (fun e => hdest e.symm) _ _)
          refine ⟨found, scriptName, n, ?_, hn, ?_, ?_⟩
          · rw [← hf]
            cases map with
            | none => exact (save_other (hW _)).symm
            | some t => simp only [saveMap]; rw [save_other (hW _), save_other (hW _)]
          · intro hc
            rw [copyAll_src] at hc
            rw [copyAll_in]
            have hi : opts.destDir ++ [n] ≠ opts.destDir ++ ["index.json".toList] := by
              intro e
              have e := List.append_cancel_left e
              simp only [List.cons.injEq, and_true] at e
              subst e
              exact hashedName_index hn
            generalize hx : (fs3.save (opts.destDir ++ ["index.json".toList]) _) _ = x at hc
            cases x with
            | none => simp only; rw [save_other hi]; exact hd
            | some c => simp only; rw [hc c rfl]
          · intro hc
            rw [copyAll_src] at hc
            rw [copyAll_in, hc]
            simp only
            rw [save_same]

/-- The files after cargo has run. -/
def afterCargo (opts : Opts) (tools : Tools) (ws : Workspace) (fs : FS) (package : Name) : FS :=
  let fs := (fs.removeDir opts.destDir).removeFile (rlibInTarget opts.cwd package)
  fs.write ws.targetDirectory (tools.cargo package fs).2

theorem run_ok {opts : Opts} {tools : Tools} {ws : Workspace} {fs : FS} {package : Name} (h : (run opts tools ws fs).outcome = .ok)
    (hb : (run opts tools ws fs).built = [package]) : (publish opts tools ws package (afterCargo opts tools ws fs package)).1 = .ok ∧
      (run opts tools ws fs).files = (publish opts tools ws package (afterCargo opts tools ws fs package)).2 := by
  unfold run at h hb ⊢
  split at h
  · cases h
  · rename_i pk hpk
    simp only [hpk] at hb ⊢
    split at h
    · cases h
    · rename_i hr
      rw [if_neg hr] at hb ⊢
      split at h
      · cases h
      · rename_i hm
        rw [if_neg hm] at hb ⊢
        simp only at h hb ⊢
        split at h
        · rename_i hs
          rw [if_pos hs] at hb ⊢
          simp only [List.cons.injEq, and_true] at hb
          subst hb
          exact ⟨h, rfl⟩
        · cases h

/-- What is published is made from what was found. -/
theorem run_published {opts : Opts} {tools : Tools} {ws : Workspace} {fs : FS} {package : Name} (h : (run opts tools ws fs).outcome = .ok)
    (hb : (run opts tools ws fs).built = [package]) (hdest : opts.destDir ≠ opts.cwd ++ "target".toList :: release) {found : Bytes}
    (hf : afterCargo opts tools ws fs package (wasmInTarget opts.cwd package) = some found)
    (hi : ∀ n c, (run opts tools ws fs).files (ws.targetDirectory ++ (release ++ ["static".toList]) ++ ["included".toList] ++ [n]) = some c →
      (∃ original, hashedName original c = some n) ∧ (getHash c = getHash (published opts tools found) → c = published opts tools found)) :
    ∃ script n, hashedName (underscored package ++ ".wasm".toList) (published opts tools found) = some n ∧
      (run opts tools ws fs).files (opts.destDir ++ [n]) = some (published opts tools found) ∧
      (run opts tools ws fs).files (opts.destDir ++ ["index.json".toList]) =
        some (tools.indexText ⟨opts.publicPath ++ '/' :: script, opts.publicPath ++ '/' :: n⟩) := by
  obtain ⟨h1, h2⟩ := run_ok h hb
  obtain ⟨found', script, n, hf', hn, ha, hx⟩ := publish_ok h1 hdest
  rw [hf] at hf'
  cases hf'
  rw [← h2] at ha hx
  refine ⟨script, n, hn, ha fun c hc => ?_, hx ?_⟩
  · obtain ⟨⟨o, ho⟩, hcol⟩ := hi n c hc
    exact hcol (hashedName_injective ho hn).2
  · cases hc : (run opts tools ws fs).files (ws.targetDirectory ++ (release ++ ["static".toList]) ++ ["included".toList] ++ ["index.json".toList]) with
    | none => rfl
    | some c =>
      obtain ⟨⟨o, ho⟩, _⟩ := hi _ c hc
      exact absurd ho hashedName_index

theorem run_outside {opts : Opts} {tools : Tools} {ws : Workspace} {fs : FS} {p : Path} (h1 : ¬ opts.destDir <+: p)
    (h2 : ¬ ws.targetDirectory <+: p) (h3 : ¬ opts.cwd ++ ["target".toList] <+: p) : (run opts tools ws fs).files p = fs p := by
  unfold run
  split
  · rfl
  · rename_i package _
    split
    · rfl
    · split
      · rfl
      · have hr : p ≠ rlibInTarget opts.cwd package := by
          rintro rfl
          apply h3
          unfold rlibInTarget
          exact (List.prefix_append_right_inj _).mpr ⟨_, rfl⟩
        have hw : ∀ l, (((fs.removeDir opts.destDir).removeFile (rlibInTarget opts.cwd package)).write ws.targetDirectory l) p = fs p := by
          intro l
          rw [write_outside h2]
          simp only [FS.removeFile, FS.removeDir]
          rw [if_neg hr, if_neg h1]
        simp only
        split
        · simp only
          rw [publish_outside h1]
          exact hw _
        · exact hw _

theorem build_inferred {opts : Opts} {tools : Tools} {ws : Workspace} {fs : FS} (x : Name) (h : x ∈ (run opts tools ws fs).built) :
    (match opts.packageName with | some name => some name | none => infer ws.packages ws.members) = some x := by
  unfold run at h
  split at h
  · cases h
  · rename_i package hp
    rw [hp]
    split at h
    · cases h
    · split at h
      · cases h
      · simp only at h
        split at h
        · simp only [List.mem_singleton] at h; rw [h]
        · simp only [List.mem_singleton] at h; rw [h]

theorem publish_code (opts : Opts) (tools : Tools) (ws : Workspace) (package : Name) (fs : FS) (code : Int) :
    (publish opts tools ws package fs).1 ≠ .err code := by
  unfold publish
  simp only
  split
  · exact fun e => by cases e
  · split
    · exact fun e => by cases e
    · split
      · exact fun e => by cases e
      · split <;> exact fun e => by cases e

theorem run_code {opts : Opts} {tools : Tools} {ws : Workspace} {fs : FS} (h : (run opts tools ws fs).outcome = .err (-1)) :
    (match opts.packageName with | some name => some name | none => infer ws.packages ws.members) = none := by
  unfold run at h
  split at h
  · rename_i hp; exact hp
  · split at h
    · cases h
    · split at h
      · cases h
      · simp only at h
        split at h
        · exact (publish_code _ _ _ _ _ _ h).elim
        · simp at h

/-! ## Theorems -/

/-- C79: the package that is built is the one that was asked for; if none was, it is the first member of the workspace that is a program; if there is none, nothing
is done and the command fails with -1, which it does in no other case. -/
theorem C79_package (opts : Opts) (tools : Tools) (ws : Workspace) (hu : (ws.packages.map (·.id)).Nodup) (fs : FS) :
    (∀ x ∈ (vertigoBuild opts tools ws fs).built, ∀ name, opts.packageName = some name → x = name) ∧
    (opts.packageName = none → ∀ x ∈ (vertigoBuild opts tools ws fs).built, ∃ p before after, IsProgram ws p ∧ x = p.name ∧
      ws.members = before ++ p.id :: after ∧ ∀ q, IsProgram ws q → q.id ∉ before) ∧
    (opts.packageName = none → (¬ ∃ p, IsProgram ws p) →
      (vertigoBuild opts tools ws fs).outcome = .err (-1) ∧ (vertigoBuild opts tools ws fs).files = fs ∧ (vertigoBuild opts tools ws fs).built = []) ∧
    ((vertigoBuild opts tools ws fs).outcome = .err (-1) → opts.packageName = none ∧ ¬ ∃ p, IsProgram ws p) := by
  refine ⟨?_, ?_, ?_, ?_⟩
  · intro x hx name hname
    have := build_inferred x hx
    rw [hname] at this
    exact (Option.some.inj this).symm
  · intro hnone x hx
    have := build_inferred x hx
    rw [hnone] at this
    obtain ⟨p, pre, post, h1, h2, h3, h4, h5⟩ := infer_some this
    have hp := mem_retain.mp (List.mem_of_find?_eq_some h1)
    refine ⟨p, pre, post, ⟨hp.1, hp.2, (cdylib_iff p).mp h2⟩, h3.symm, h4, ?_⟩
    intro q hq hm
    obtain ⟨a, b⟩ := program_found hu hq
    rw [h5 q.id hm q a] at b
    cases b
  · intro hnone hno
    have : infer ws.retain.packages ws.retain.members = none := by
      cases hi : infer ws.retain.packages ws.retain.members with
      | none => rfl
      | some x =>
        obtain ⟨p, pre, post, h1, h2, h3, h4, h5⟩ := infer_some hi
        have hp := mem_retain.mp (List.mem_of_find?_eq_some h1)
        exact absurd ⟨p, hp.1, hp.2, (cdylib_iff p).mp h2⟩ hno
    unfold vertigoBuild run
    simp only [hnone, this]
    exact ⟨trivial, trivial, trivial⟩
  · intro h
    have h := run_code h
    cases hn : opts.packageName with
    | some x => rw [hn] at h; cases h
    | none =>
      rw [hn] at h
      refine ⟨rfl, fun ⟨p, hp⟩ => ?_⟩
      obtain ⟨a, b⟩ := program_found hu hp
      rw [infer_none h p.id hp.2.1 p a] at b
      cases b

/-- C79: exactly one package is built by a command that succeeds. -/
theorem C79_one (opts : Opts) (tools : Tools) (ws : Workspace) (fs : FS) (h : (vertigoBuild opts tools ws fs).outcome = .ok) :
    ∃ package, (vertigoBuild opts tools ws fs).built = [package] ∧
      ∃ files, (tools.cargo package files).1 = true := by
  unfold vertigoBuild run at h ⊢
  split at h
  · cases h
  · rename_i pk hpk
    simp only
    split at h
    · cases h
    · rename_i hr
      rw [if_neg hr]
      split at h
      · cases h
      · rename_i hm
        rw [if_neg hm]
        simp only at h ⊢
        split at h
        · rename_i hs
          rw [if_pos hs]
          exact ⟨pk, rfl, _, hs⟩
        · cases h

/-- The content that is published for a program: what `wasm-opt` makes of it, or the program if it is disabled or does not work. -/
def Publishes (opts : Opts) (tools : Tools) (program content : Bytes) : Prop :=
  (opts.disableWasmOpt = false ∧ tools.wasmOpt program = some content) ∨
  ((opts.disableWasmOpt = true ∨ tools.wasmOpt program = none) ∧ content = program)

theorem publishes_published (opts : Opts) (tools : Tools) (found : Bytes) : Publishes opts tools found (published opts tools found) := by
  unfold Publishes published
  cases hd : opts.disableWasmOpt with
  | true => exact .inr ⟨.inl rfl, by simp⟩
  | false =>
    cases ho : tools.wasmOpt found with
    | none => exact .inr ⟨.inr rfl, by simp⟩
    | some c => exact .inl ⟨rfl, by simp⟩

/-- Every file that the macros have put aside has a name with its checksum (C63), and none has the checksum of `content` by accident. -/
def NamesFollow (ws : Workspace) (files : FS) (content : Bytes) : Prop :=
  ∀ n c, files (ws.targetDirectory ++ ["wasm32-unknown-unknown".toList, "release".toList, "static".toList, "included".toList, n]) = some c →
    (∃ original, hashedName original c = some n) ∧ (getHash c = getHash content → c = content)

theorem included_eq (t : Path) (n : Name) : t ++ (release ++ ["static".toList]) ++ ["included".toList] ++ [n] =
    t ++ ["wasm32-unknown-unknown".toList, "release".toList, "static".toList, "included".toList, n] := by
  unfold release
  generalize "wasm32-unknown-unknown".toList = a
  generalize "release".toList = b
  generalize "static".toList = c
  generalize "included".toList = d
  simp

/-- C79, in part: if the target directory of cargo is `target` in the current directory, and the library of the package has no other name, then a command that
succeeds publishes the program it has just compiled, and `index.json` refers to it. The full statement has none of the two conditions; it is false
(`C79_program_violated`). -/
theorem C79_program_partial (opts : Opts) (tools : Tools) (ws : Workspace) (fs : FS) (package : Name) (program content : Bytes)
    (h : (vertigoBuild opts tools ws fs).outcome = .ok) (hb : (vertigoBuild opts tools ws fs).built = [package])
    (htarget : ws.targetDirectory = opts.cwd ++ ["target".toList])
    (hdest : opts.destDir ≠ ws.targetDirectory ++ ["wasm32-unknown-unknown".toList, "release".toList])
    (hc : ∀ files, Compiled (tools.cargo package files) package program) (hp : Publishes opts tools program content)
    (hi : NamesFollow ws (vertigoBuild opts tools ws fs).files content) :
    ∃ script name, hashedName (wasmName package) content = some name ∧ (vertigoBuild opts tools ws fs).files (opts.destDir ++ [name]) = some content ∧
      (vertigoBuild opts tools ws fs).files (opts.destDir ++ ["index.json".toList]) =
        some (tools.indexText ⟨opts.publicPath ++ '/' :: script, opts.publicPath ++ '/' :: name⟩) := by
  have hpub : published opts tools program = content := by
    unfold published
    rcases hp with ⟨h1, h2⟩ | ⟨h1 | h1, h2⟩
    · rw [h1, h2]; rfl
    · rw [h1, h2]; rfl
    · rw [h1, h2]; simp
  have hdest' : opts.destDir ≠ opts.cwd ++ "target".toList :: release := by
    rw [htarget, List.append_assoc] at hdest
    exact hdest
  have hf : afterCargo opts tools ws.retain fs package (wasmInTarget opts.cwd package) = some program := by
    obtain ⟨_, before, after, he, hn⟩ := hc ((fs.removeDir opts.destDir).removeFile (rlibInTarget opts.cwd package))
    unfold afterCargo
    rw [he]
    have hw : wasmInTarget opts.cwd package = ws.retain.targetDirectory ++ ["wasm32-unknown-unknown".toList, "release".toList, wasmName package] := by
      show _ = ws.targetDirectory ++ _
      rw [htarget, List.append_assoc]
      rfl
    rw [hw]
    exact write_last hn
  have := run_published h hb hdest' hf (fun n c hcn => by
    have := included_eq ws.targetDirectory n
    rw [hpub]
    exact hi n c (by rw [← this]; exact hcn))
  rw [hpub] at this
  exact this

/-- The full statement of C79 is false: if cargo does not write to `target/wasm32-unknown-unknown/release/` and the name of the package in the current directory,
because its target directory is elsewhere or the library has another name, and a file of an earlier build is there, a command that succeeds publishes that file. -/
theorem C79_program_violated (opts : Opts) (tools : Tools) (ws : Workspace) (fs : FS) (package : Name) (old content : Bytes)
    (h : (vertigoBuild opts tools ws fs).outcome = .ok) (hb : (vertigoBuild opts tools ws fs).built = [package])
    (hold : fs (opts.cwd ++ ["target".toList, "wasm32-unknown-unknown".toList, "release".toList, wasmName package]) = some old)
    (hdest : ¬ opts.destDir <+: opts.cwd ++ ["target".toList, "wasm32-unknown-unknown".toList, "release".toList, wasmName package])
    (hc : ∀ files, ∀ w ∈ (tools.cargo package files).2,
      ws.targetDirectory ++ w.1 ≠ opts.cwd ++ ["target".toList, "wasm32-unknown-unknown".toList, "release".toList, wasmName package])
    (hp : Publishes opts tools old content) (hi : NamesFollow ws (vertigoBuild opts tools ws fs).files content) :
    ∃ script name, hashedName (wasmName package) content = some name ∧ (vertigoBuild opts tools ws fs).files (opts.destDir ++ [name]) = some content ∧
      (vertigoBuild opts tools ws fs).files (opts.destDir ++ ["index.json".toList]) =
        some (tools.indexText ⟨opts.publicPath ++ '/' :: script, opts.publicPath ++ '/' :: name⟩) := by
  have hpub : published opts tools old = content := by
    unfold published
    rcases hp with ⟨h1, h2⟩ | ⟨h1 | h1, h2⟩
    · rw [h1, h2]; rfl
    · rw [h1, h2]; rfl
    · rw [h1, h2]; simp
  have hw : wasmInTarget opts.cwd package = opts.cwd ++ ["target".toList, "wasm32-unknown-unknown".toList, "release".toList, wasmName package] := rfl
  rw [← hw] at hold hdest hc
  have hdest' : opts.destDir ≠ opts.cwd ++ "target".toList :: release := by
    intro e
    apply hdest
    rw [e, wasmInTarget_eq]
    exact List.prefix_append ..
  have hf : afterCargo opts tools ws.retain fs package (wasmInTarget opts.cwd package) = some old := by
    unfold afterCargo
    have hwrite : ∀ (l : List (Path × Bytes)) (g : FS), (∀ w ∈ l, ws.targetDirectory ++ w.1 ≠ wasmInTarget opts.cwd package) →
        g.write ws.targetDirectory l (wasmInTarget opts.cwd package) = g (wasmInTarget opts.cwd package) := by
      intro l
      induction l with
      | nil => intro g _; rfl
      | cons w l ih =>
        obtain ⟨q, c⟩ := w
        intro g hg
        simp only [FS.write]
        rw [ih _ (fun x hx => hg x (List.mem_cons_of_mem _ hx)), save_other (fun e => hg (q, c) (List.mem_cons_self ..) e.symm)]
    show FS.write _ ws.targetDirectory _ _ = _
    rw [hwrite _ _ (hc _)]
    simp only [FS.removeFile, FS.removeDir]
    rw [if_neg, if_neg hdest, hold]
    unfold wasmInTarget rlibInTarget
    generalize release = r
    intro e
    have := congrArg List.length e
    simp at this
  have := run_published h hb hdest' hf (fun n c hcn => by
    have := included_eq ws.targetDirectory n
    rw [hpub]
    exact hi n c (by rw [← this]; exact hcn))
  rw [hpub] at this
  exact this

/-- C79: whatever happens, files outside of the destination, of the target directory of cargo and of `target` in the current directory stay as they are. -/
theorem C79_rest (opts : Opts) (tools : Tools) (ws : Workspace) (fs : FS) (p : Path) (h1 : ¬ opts.destDir <+: p) (h2 : ¬ ws.targetDirectory <+: p)
    (h3 : ¬ opts.cwd ++ ["target".toList] <+: p) : (vertigoBuild opts tools ws fs).files p = fs p := run_outside h1 h2 h3

/-- C79: cargo always finds the destination empty and the library of the package removed from `target`, so that it is compiled again and its static files are
written again: what it would do with files there has no effect. -/
theorem C79_compiled_again (opts : Opts) (tools : Tools) (ws : Workspace) (fs : FS) (cargo : Name → FS → Bool × List (Path × Bytes))
    (h : ∀ package files, (∀ p, opts.destDir <+: p → files p = none) →
      files (opts.cwd ++ ["target".toList, "wasm32-unknown-unknown".toList, "release".toList, "deps".toList,
        "lib".toList ++ (package.map fun c => if c = '-' then '_' else c) ++ ".rlib".toList]) = none →
      tools.cargo package files = cargo package files) :
    vertigoBuild opts tools ws fs = vertigoBuild opts { tools with cargo } ws fs := by
  have hcargo : ∀ package, tools.cargo package ((fs.removeDir opts.destDir).removeFile (rlibInTarget opts.cwd package)) =
      cargo package ((fs.removeDir opts.destDir).removeFile (rlibInTarget opts.cwd package)) := by
    intro package
    apply h
    · intro p hp
      simp [FS.removeFile, FS.removeDir, hp]
    · simp only [FS.removeFile]
      exact if_pos rfl
  have hpublish : ∀ ws package fs, publish opts tools ws package fs = publish opts { tools with cargo } ws package fs := fun _ _ _ => rfl
  unfold vertigoBuild run
  generalize ws.retain = ws
  cases (match opts.packageName with | some name => some name | none => infer ws.packages ws.members) with
  | none => rfl
  | some package =>
    simp only [hcargo package, hpublish]

/-! ## Non-vacuity -/

def exOpts : Opts := ⟨none, "/build".toList, false, true, ["home".toList, "app".toList, "build".toList], ["home".toList, "app".toList]⟩

def exWs (target : Path) : Workspace :=
  ⟨[⟨"lib 0.1", "helper".toList, [⟨["lib"]⟩]⟩, ⟨"my-app 0.1", "my-app".toList, [⟨["cdylib", "rlib"]⟩]⟩, ⟨"serde 1", "serde".toList, [⟨["cdylib"]⟩]⟩],
    target, ["lib 0.1", "my-app 0.1"]⟩

/-- Cargo writes the script, its map, the program and a file of `include_static!`. -/
def exTools : Tools :=
  { rustup := true
    cargo := fun _ _ => (true, [(release ++ ["static".toList, "wasm_run.js".toList], [1#8]), (release ++ ["static".toList, "wasm_run.js.map".toList], [2#8]),
      (release ++ ["my_app.wasm".toList], [7#8, 7#8])])
    wasmOpt := fun c => some (c.take 1)
    remap := fun c _ => c
    indexText := fun _ => [3#8]
    removable := true }

def exOld : FS := fun p => if p = wasmInTarget exOpts.cwd "my-app".toList then some [9#8, 9#8] else none

theorem exOk : (vertigoBuild exOpts exTools (exWs ["home".toList, "app".toList, "target".toList]) exOld).outcome = .ok ∧
    (vertigoBuild exOpts exTools (exWs ["home".toList, "app".toList, "target".toList]) exOld).built = ["my-app".toList] := by decide +kernel

theorem exStale : (vertigoBuild exOpts exTools (exWs ["tmp".toList]) exOld).outcome = .ok ∧
    (vertigoBuild exOpts exTools (exWs ["tmp".toList]) exOld).built = ["my-app".toList] := by decide +kernel

example : IsProgram (exWs []) ⟨"my-app 0.1", "my-app".toList, [⟨["cdylib", "rlib"]⟩]⟩ := by
  refine ⟨?_, ?_, _, List.mem_singleton_self _, ?_⟩ <;> simp [exWs]

/-- Another cargo, which builds nothing when the library is there: the hypothesis of `C79_compiled_again` is met. -/
example : ∀ package files,
    files (exOpts.cwd ++ ["target".toList, "wasm32-unknown-unknown".toList, "release".toList, "deps".toList,
      "lib".toList ++ (package.map fun c => if c = '-' then '_' else c) ++ ".rlib".toList]) = none →
    exTools.cargo package files = (fun package (files : FS) => if files (rlibInTarget exOpts.cwd package) = none then exTools.cargo package files else (true, [])) package files :=
  fun _ _ h => (if_pos h).symm

/-- The target directory in its place: the program just compiled is published, after `wasm-opt`. -/
example : ∃ name, hashedName "my_app.wasm".toList [7#8] = some name ∧
    (vertigoBuild exOpts exTools (exWs ["home".toList, "app".toList, "target".toList]) exOld).files (exOpts.destDir ++ [name]) = some [7#8] := by
  refine ⟨(hashedName "my_app.wasm".toList [7#8]).get (by decide +kernel), by simp, by decide +kernel⟩

/-- The target directory elsewhere: the file of an earlier build is published. -/
example : ∃ name, hashedName "my_app.wasm".toList [9#8] = some name ∧
    (vertigoBuild exOpts exTools (exWs ["tmp".toList]) exOld).files (exOpts.destDir ++ [name]) = some [9#8] := by
  refine ⟨(hashedName "my_app.wasm".toList [9#8]).get (by decide +kernel), by simp, by decide +kernel⟩

/-- What cargo does there is what `C79_program_partial` asks for. -/
example : ∀ files, Compiled (exTools.cargo "my-app".toList files) "my-app".toList [7#8, 7#8] := by
  intro files
  exact ⟨rfl, [(release ++ ["static".toList, "wasm_run.js".toList], [1#8]), (release ++ ["static".toList, "wasm_run.js.map".toList], [2#8])], [],
    (by decide +kernel : (exTools.cargo "my-app".toList fun _ => none).2 = _), by simp⟩

end Verif.Assets.Program

import Verif.Assets.Hash
import Verif.Ssr.Cli
/-!
# C63: the build and the server of static files

Model of `run_with_ws` of crates/vertigo-cli/src/build/build_run.rs, of `bundle_file` of crates/vertigo-macro/src/include_static.rs and of
the route for static files in crates/vertigo-cli/src/serve/serve_run.rs.

Cargo, `wasm-opt` and the file system are parameters: what a build of the crate expands, and what the tools produce. The directories of the
build are taken to be where the program looks for them (the environment variable `CARGO_TARGET_DIR` is not set).
-/
namespace Verif.Assets

abbrev Name := List Char
abbrev Bytes := List Byte

/-- The files in a directory. -/
abbrev Dir := Name → Option Bytes

def Dir.empty : Dir := fun _ => none

/-- wasm_path.rs:38-44 (`save`). -/
def Dir.save (d : Dir) (name : Name) (content : Bytes) : Dir := fun n => if n = name then some content else d n

/-- wasm_path.rs:95-99 (`remove_file`). -/
def Dir.remove (d : Dir) (name : Name) : Dir := fun n => if n = name then none else d n

/-- A file given by its name and its content. -/
structure File where
  name : Name
  content : Bytes

/-- wasm_path.rs:51-62 (`save_with_hash`): the directory after it and the name that is returned; `none`: a panic. -/
def Dir.saveHashed (d : Dir) (f : File) : Option (Dir × Name) :=
  match hashedName f.name f.content with
  | some name => some (d.save name f.content, name)
  | none => none

/-! ## `include_static!` -/

/-- include_static.rs:21-67 (`bundle_file`) in release mode, for a file that exists: the directory `static/included` and the text that the
macro stands for. -/
def bundleFile (publicPath : List Char) (included : Dir) (f : File) : Option (Dir × List Char) :=
  match included.saveHashed f with
  | some (dir, hash) => some (dir, publicPath ++ '/' :: hash)
  | none => none

/-- The invocations of `include_static!` that the compiler expands in one run; if one of them panics, the rest may still be expanded, and the
build fails. -/
def expand (publicPath : List Char) : Dir → List File → Dir × List (List Char × Bytes) × Bool
  | d, [] => (d, [], true)
  | d, f :: fs =>
      match bundleFile publicPath d f with
      | some (d', url) =>
          let (d'', urls, ok) := expand publicPath d' fs
          (d'', (url, f.content) :: urls, ok)
      | none =>
          let (d'', urls, _) := expand publicPath d fs
          (d'', urls, false)

/-! ## The build -/

/-- One run of `vertigo build`. -/
structure Build where
  publicPath : List Char
  /-- the files that `include_static!` is expanded for in this run -/
  uses : List File
  /-- whether the code compiles apart from that -/
  compiles : Bool
  /-- `wasm_run.js` -/
  runJs : Bytes
  /-- with `--wasm-run-source-map`: the text of `wasm_run.js.map`, after the name of the script in it has been replaced -/
  sourceMap : Option (Name → Bytes)
  /-- the name of the package, with underscores -/
  package : Name
  wasm : Bytes
  /-- what `wasm-opt` writes; `none`: disabled, missing or failed -/
  optimized : Option Bytes

/-- commons/models.rs:4-8. -/
structure Index where
  runJs : List Char
  wasm : List Char

structure World where
  /-- `target/wasm32-unknown-unknown/release/static/included` -/
  included : Dir := .empty
  /-- the destination directory, apart from `index.json` -/
  dest : Dir := .empty
  /-- `index.json` in the destination -/
  index : Option Index := none
  /-- what the invocations of `include_static!` stand for that have ever been expanded, and the content of their files -/
  compiled : List (List Char × Bytes) := []

def wasmRunJs : Name := "wasm_run.js".toList
def wasmRunJsMap : Name := "wasm_run.js.map".toList
def indexJson : Name := "index.json".toList

/-- build_run.rs:68-78: with the option, the map of the script is saved, under a name without a hash. -/
def saveMap (d : Dir) (b : Build) (runJsName : Name) : Dir :=
  match b.sourceMap with
  | some text => d.save wasmRunJsMap (text runJsName)
  | none => d

/-- build_run.rs:83-98: the file of `wasm-opt` is saved under its hashed name and removed, or the file of the compiler is saved. -/
def saveWasm (d : Dir) (b : Build) : Option (Dir × Name) :=
  let name := b.package ++ ".wasm".toList
  match b.optimized with
  | some content =>
      match (d.save name content).saveHashed ⟨name, content⟩ with
      | some (d, hash) => some (d.remove name, hash)
      | none => none
  | none => d.saveHashed ⟨name, b.wasm⟩

/-- build_run.rs:113-122: every file in `included` is copied. -/
def copyIncluded (dest included : Dir) : Dir := fun n =>
  match included n with
  | some content => some content
  | none => dest n

/-- build_run.rs:21-125 (`run_with_ws`). The destination is cleaned before cargo runs. -/
def build (w : World) (b : Build) : World :=
  let (included, urls, expanded) := expand b.publicPath w.included b.uses
  let w := { w with included := included, dest := .empty, index := none, compiled := w.compiled ++ urls }
  if b.compiles && expanded then
    match w.dest.saveHashed ⟨wasmRunJs, b.runJs⟩ with
    | none => w
    | some (dest, runJsName) =>
        let dest := saveMap dest b runJsName
        match saveWasm dest b with
        | none => { w with dest := dest }
        | some (dest, wasmName) =>
            { w with dest := copyIncluded dest included, index := some ⟨b.publicPath ++ '/' :: runJsName, b.publicPath ++ '/' :: wasmName⟩ }
  else w

def builds (bs : List Build) : World := bs.foldl build {}

/-! ## The server -/

/-- serve_run.rs:46-53: `nest_service` of `ServeDir` under the directory of the url of the wasm file, for the url of a request as a page
writes it. What follows `?` or `#` is not part of the path. A browser encodes other characters and `ServeDir` decodes them; this is not
modelled, and names with `%` or a backslash are therefore outside of the model. `index.json` lies in the directory as well. -/
def serve (w : World) (url : List Char) : Option Bytes :=
  match w.index with
  | none => none
  | some index =>
      match Verif.Ssr.getBaseDir index.wasm with
      | none => none
      | some root =>
          match Verif.Ssr.stripPrefix root (url.takeWhile fun c => c ≠ '?' ∧ c ≠ '#') with
          | some ('/' :: name) => w.dest name
          | _ => none

/-- serve_run.rs:234-240 (`set_cache_header`): how many seconds any answer of that route may be kept, also one for a file that is not
there. -/
def maxAge (_answer : Option Bytes) : Nat := 86400

/-! ## Proofs -/

theorem cut_dot : ∀ {l : List Char} {x : Char} {before : List Char}, l.dropWhile (fun c => decide (c ≠ '.')) = x :: before →
    l = l.takeWhile (fun c => decide (c ≠ '.')) ++ '.' :: before ∧ '.' ∉ l.takeWhile (fun c => decide (c ≠ '.'))
  | [], _, _, h => by simp at h
  | c :: l, x, before, h => by
      by_cases hc : c = '.'
      · subst hc
        simp at h
        simp [h.2]
      · have h' : l.dropWhile (fun c => decide (c ≠ '.')) = x :: before := by
          rw [List.dropWhile_cons_of_pos (by simpa using hc)] at h
          exact h
        obtain ⟨h1, h2⟩ := cut_dot h'
        rw [List.takeWhile_cons_of_pos (by simpa using hc)]
        refine ⟨?_, ?_⟩
        · rw [List.cons_append, ← h1]
        · intro hm
          rcases List.mem_cons.mp hm with e | hm
          · exact hc e.symm
          · exact h2 hm

theorem splitName_some {name stem ext : Name} (h : splitName name = (stem, some ext)) : name = stem ++ '.' :: ext ∧ '.' ∉ ext := by
  unfold splitName at h
  split at h
  · cases h
  · split at h
    · cases h
    · rename_i x before hd
      split at h
      · cases h
      · cases h
        obtain ⟨h1, h2⟩ := cut_dot hd
        constructor
        · have h1 := congrArg List.reverse h1
          rw [List.reverse_reverse, List.reverse_append, List.reverse_cons, List.append_assoc, List.singleton_append] at h1
          exact h1
        · simpa using h2

theorem splitName_dot {stem ext : Name} (hs : stem ≠ []) (he : '.' ∉ ext) (hd : stem ++ '.' :: ext ≠ ['.', '.']) :
    splitName (stem ++ '.' :: ext) = (stem, some ext) := by
  unfold splitName
  rw [if_neg hd]
  have h : (stem ++ '.' :: ext).reverse = ext.reverse ++ '.' :: stem.reverse := by simp
  have hp : ∀ c ∈ ext.reverse, decide (c ≠ '.') = true := by
    intro c hc
    have : c ≠ '.' := by
      rintro rfl
      exact he (List.mem_reverse.mp hc)
    simpa using this
  rw [h, List.dropWhile_append_of_pos hp, List.takeWhile_append_of_pos hp]
  simp [hs]

theorem dot_split {a b x y : List Char} (ha : '.' ∉ a) (hb : '.' ∉ b) (h : x ++ '.' :: a = y ++ '.' :: b) : x = y ∧ a = b := by
  have h := congrArg List.reverse h
  simp only [List.reverse_append, List.reverse_cons, List.append_assoc, List.singleton_append] at h
  have ha' : '.' ∉ a.reverse := by simpa using ha
  have hb' : '.' ∉ b.reverse := by simpa using hb
  have key : ∀ (p q u v : List Char), '.' ∉ p → '.' ∉ q → p ++ '.' :: u = q ++ '.' :: v → p = q ∧ u = v := by
    intro p
    induction p with
    | nil =>
        intro q u v _ hq h
        cases q with
        | nil => simpa using h
        | cons c q =>
            simp at h
            exact absurd h.1 (by rintro rfl; simp at hq)
    | cons c p ih =>
        intro q u v hp hq h
        cases q with
        | nil =>
            simp at h
            exact absurd h.1 (by rintro rfl; simp at hp)
        | cons d q =>
            simp only [List.cons_append, List.cons.injEq] at h
            have := ih q u v (by simp at hp; tauto) (by simp at hq; tauto) h.2
            exact ⟨by rw [h.1, this.1], this.2⟩
  have := key _ _ _ _ ha' hb' h
  exact ⟨List.reverse_injective this.2, List.reverse_injective this.1⟩

theorem hash_dot (content : Bytes) : '.' ∉ getHash content := by
  intro h
  rcases hash_safe content _ h with h | h | h <;> revert h <;> decide

theorem hashedName_eq {name out : Name} {content : Bytes} (h : hashedName name content = some out) :
    ∃ stem ext, name = stem ++ '.' :: ext ∧ '.' ∉ ext ∧ out = stem ++ '.' :: getHash content ++ '.' :: ext := by
  unfold hashedName at h
  split at h
  · rename_i stem ext hs
    obtain ⟨h1, h2⟩ := splitName_some hs
    cases h
    exact ⟨stem, ext, h1, h2, rfl⟩
  · cases h

theorem hashedName_injective {n n' out : Name} {c c' : Bytes} (h : hashedName n c = some out) (h' : hashedName n' c' = some out) :
    n = n' ∧ getHash c = getHash c' := by
  obtain ⟨s, e, h1, h2, h3⟩ := hashedName_eq h
  obtain ⟨s', e', h1', h2', h3'⟩ := hashedName_eq h'
  rw [h3] at h3'
  obtain ⟨a, b⟩ := dot_split h2 h2' h3'
  obtain ⟨a, b'⟩ := dot_split (hash_dot _) (hash_dot _) a
  subst a b
  exact ⟨by rw [h1, h1'], b'⟩

/-- A hashed name ends with a dot, eleven characters without a dot, a dot, and characters without a dot. -/
theorem hashedName_form {stem mid ext : Name} (hm : '.' ∉ mid) (he : '.' ∉ ext) (hl : mid.length ≠ 11) {n : Name} {c : Bytes} :
    hashedName n c ≠ some (stem ++ '.' :: mid ++ '.' :: ext) := by
  intro h
  obtain ⟨s, e, -, h2, h3⟩ := hashedName_eq h
  obtain ⟨a, -⟩ := dot_split he h2 h3
  obtain ⟨-, b⟩ := dot_split hm (hash_dot _) a
  exact hl (by rw [b, hash_length])

theorem hashedName_single {stem ext : Name} (hm : '.' ∉ stem) (he : '.' ∉ ext) {n : Name} {c : Bytes} :
    hashedName n c ≠ some (stem ++ '.' :: ext) := by
  intro h
  obtain ⟨s, e, -, h2, h3⟩ := hashedName_eq h
  obtain ⟨a, -⟩ := dot_split he h2 h3
  exact hm (by rw [a]; simp)

theorem hashedName_map {n : Name} {c : Bytes} : hashedName n c ≠ some wasmRunJsMap := by
  have : wasmRunJsMap = "wasm_run".toList ++ '.' :: "js".toList ++ '.' :: "map".toList := by decide
  rw [this]
  exact hashedName_form (by decide) (by decide) (by decide)

theorem hashedName_index {n : Name} {c : Bytes} : hashedName n c ≠ some indexJson := by
  have : indexJson = "index".toList ++ '.' :: "json".toList := by decide
  rw [this]
  exact hashedName_single (by decide) (by decide)

/-- What is in a directory of hashed files was saved there. -/
def Saved (fs : List File) (d : Dir) : Prop :=
  ∀ n c, d n = some c → ∃ f ∈ fs, hashedName f.name f.content = some n ∧ f.content = c

theorem Saved.mono {fs gs : List File} {d : Dir} (h : ∀ f ∈ fs, f ∈ gs) (hs : Saved fs d) : Saved gs d := by
  intro n c hn
  obtain ⟨f, hf, r⟩ := hs n c hn
  exact ⟨f, h f hf, r⟩

/-- What the expansion leaves in the directory, and in the program. -/
structure Expanded (fs : List File) (p : List Char) (d d' : Dir) (urls : List (List Char × Bytes)) : Prop where
  saved : Saved fs d'
  kept : ∀ n, (d n).isSome → (d' n).isSome
  urls : ∀ u ∈ urls, ∃ f ∈ fs, ∃ n, hashedName f.name f.content = some n ∧ u = (p ++ '/' :: n, f.content) ∧ (d' n).isSome

theorem expand_spec (all : List File) (p : List Char) (fs : List File) (hfs : ∀ f ∈ fs, f ∈ all) :
    ∀ d, Saved all d → Expanded all p d (expand p d fs).1 (expand p d fs).2.1 := by
  induction fs with
  | nil => intro d hd; exact ⟨hd, fun _ h => h, by simp [expand]⟩
  | cons f fs ih =>
      intro d hd
      have hfs' : ∀ f ∈ fs, f ∈ all := fun g hg => hfs g (List.mem_cons_of_mem _ hg)
      simp only [expand, bundleFile, Dir.saveHashed]
      cases hn : hashedName f.name f.content with
      | none =>
          simp only
          have := ih hfs' d hd
          exact ⟨this.saved, this.kept, this.urls⟩
      | some name =>
          simp only
          have hd' : Saved all (d.save name f.content) := by
            intro n c h
            unfold Dir.save at h
            split at h
            · rename_i e
              cases h; subst e
              exact ⟨f, hfs f (by simp), hn, rfl⟩
            · exact hd n c h
          have h := ih hfs' _ hd'
          refine ⟨h.saved, ?_, ?_⟩
          · intro n hs
            apply h.kept
            unfold Dir.save
            split
            · rfl
            · exact hs
          · intro u hu
            rcases List.mem_cons.mp hu with rfl | hu
            · exact ⟨f, hfs f (by simp), name, hn, rfl, h.kept _ (by simp [Dir.save])⟩
            · exact h.urls u hu

/-- What holds after any builds. -/
structure Inv (all : List File) (w : World) : Prop where
  saved : Saved all w.included
  compiled : ∀ u ∈ w.compiled, ∃ f ∈ all, ∃ n p, hashedName f.name f.content = some n ∧ u = (p ++ '/' :: n, f.content) ∧ (w.included n).isSome
  complete : w.index.isSome → ∀ n c, w.included n = some c → w.dest n = some c

theorem build_inv {all : List File} {w : World} (h : Inv all w) {b : Build} (hb : ∀ f ∈ b.uses, f ∈ all) : Inv all (build w b) := by
  have he := expand_spec all b.publicPath b.uses hb w.included h.saved
  have hc : ∀ u ∈ w.compiled ++ (expand b.publicPath w.included b.uses).2.1, ∃ f ∈ all, ∃ n p, hashedName f.name f.content = some n ∧
      u = (p ++ '/' :: n, f.content) ∧ ((expand b.publicPath w.included b.uses).1 n).isSome := by
    intro u hu
    rcases List.mem_append.mp hu with hu | hu
    · obtain ⟨f, hf, n, p, h1, h2, h3⟩ := h.compiled u hu
      exact ⟨f, hf, n, p, h1, h2, he.kept _ h3⟩
    · obtain ⟨f, hf, n, h1, h2, h3⟩ := he.urls u hu
      exact ⟨f, hf, n, _, h1, h2, h3⟩
  simp only [build]
  split
  · split
    · exact ⟨he.saved, hc, by simp⟩
    · split
      · exact ⟨he.saved, hc, by simp⟩
      · refine ⟨he.saved, hc, ?_⟩
        intro _ n c hn
        simp only [copyIncluded]
        simp only at hn
        rw [hn]
  · exact ⟨he.saved, hc, by simp⟩

theorem builds_inv (all : List File) (bs : List Build) (h : ∀ b ∈ bs, ∀ f ∈ b.uses, f ∈ all) : Inv all (builds bs) := by
  have : ∀ w, Inv all w → Inv all (bs.foldl build w) := by
    induction bs with
    | nil => intro w hw; exact hw
    | cons b bs ih =>
        intro w hw
        exact ih (fun b' hb' => h b' (List.mem_cons_of_mem _ hb')) _ (build_inv hw (h b (by simp)))
  apply this
  exact ⟨by intro n c h; simp [Dir.empty] at h, by simp, by simp⟩

end Verif.Assets

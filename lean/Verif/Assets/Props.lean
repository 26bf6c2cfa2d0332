import Verif.Assets.Build
/-!
# C63: static files get names that follow their content and are served under the URLs the program uses
-/
namespace Verif.Assets

/-! ## Specification -/

/-- A name of a file with an extension. -/
def HasExtension (name : Name) : Prop := ∃ stem ext, name = stem ++ '.' :: ext ∧ stem ≠ [] ∧ '.' ∉ ext ∧ name ≠ ['.', '.']

/-- Characters that end the path of a url. -/
def PathOnly (text : List Char) : Prop := '?' ∉ text ∧ '#' ∉ text

/-- All the files that the builds save under hashed names. -/
def Build.files (b : Build) : List File :=
  ⟨wasmRunJs, b.runJs⟩ :: ⟨b.package ++ ".wasm".toList, b.optimized.getD b.wasm⟩ :: b.uses

/-- The files with one name and one checksum have one content. -/
def NoCollision (fs : List File) : Prop :=
  ∀ f ∈ fs, ∀ g ∈ fs, f.name = g.name → getHash f.content = getHash g.content → f.content = g.content

/-! ## Names -/

/-- Two versions of a file that differ only within eight bytes have different hashes, and therefore different names. -/
theorem C63_window (pre a a' post : Bytes) (hl : a.length = a'.length) (h8 : a.length ≤ 8) (h : a ≠ a') :
    getHash (pre ++ a ++ post) ≠ getHash (pre ++ a' ++ post) ∧
    ∀ n n' out : Name, ¬ (hashedName n (pre ++ a ++ post) = some out ∧ hashedName n' (pre ++ a' ++ post) = some out) := by
  have h1 : getHash (pre ++ a ++ post) ≠ getHash (pre ++ a' ++ post) := fun e => h (crc_window pre a a' post hl h8 (hash_injective e))
  exact ⟨h1, fun n n' out e => h1 (hashedName_injective e.1 e.2).2⟩

example : getHash ([118#8, 101#8] ++ [49#8] ++ [0#8]) ≠ getHash ([118#8, 101#8] ++ [50#8] ++ [0#8]) :=
  (C63_window [118#8, 101#8] [49#8] [50#8] [0#8] rfl (by decide) (by decide)).1

/-- Bytes of value zero at the beginning of a file do not change the hash: the register of the checksum starts with zero. -/
theorem C63_leading_zeros_violated (data : Bytes) : getHash (0#8 :: data) = getHash data ∧ 0#8 :: data ≠ data := by
  constructor
  · unfold getHash crc64
    rw [List.foldl_cons, show update 0#64 0#8 = 0#64 from by decide +kernel]
  · intro h
    have := congrArg List.length h
    simp at this

/-- The new name of a file: the hash, of eleven letters, digits, `-` and `_`, is put before the extension; the name and the hash can be read
from it. A file without an extension is refused. -/
theorem C63_names (n : Name) (c : Bytes) :
    (∀ stem ext, n = stem ++ '.' :: ext → stem ≠ [] → '.' ∉ ext → n ≠ ['.', '.'] →
      hashedName n c = some (stem ++ '.' :: getHash c ++ '.' :: ext)) ∧
    (¬ HasExtension n → hashedName n c = none) ∧
    ((getHash c).length = 11 ∧ ∀ x ∈ getHash c, x.isAlphanum ∨ x = '-' ∨ x = '_') ∧
    (∀ n' c' out, hashedName n c = some out → (hashedName n' c' = some out ↔ (n' = n ∧ getHash c' = getHash c))) := by
  have key : ∀ stem ext, n = stem ++ '.' :: ext → stem ≠ [] → '.' ∉ ext → n ≠ ['.', '.'] →
      hashedName n c = some (stem ++ '.' :: getHash c ++ '.' :: ext) := by
    intro stem ext hn hs he hd
    subst hn
    unfold hashedName
    rw [splitName_dot hs he hd]
  refine ⟨key, ?_, ⟨hash_length c, hash_safe c⟩, ?_⟩
  · intro h
    cases hn : hashedName n c with
    | none => rfl
    | some out =>
        exfalso
        apply h
        unfold hashedName at hn
        split at hn
        · rename_i stem ext hs
          obtain ⟨h1, h2⟩ := splitName_some hs
          refine ⟨stem, ext, h1, ?_, h2, ?_⟩
          · rintro rfl
            unfold splitName at hs
            split at hs
            · cases hs
            · split at hs
              · cases hs
              · split at hs
                · cases hs
                · rename_i hb
                  simp only [Prod.mk.injEq] at hs
                  exact hb (by simpa using hs.1)
          · intro e
            unfold splitName at hs
            rw [if_pos e] at hs
            cases hs
        · cases hn
  · intro n' c' out h
    constructor
    · intro h'
      obtain ⟨a, b⟩ := hashedName_injective h h'
      exact ⟨a.symm, b.symm⟩
    · rintro ⟨rfl, e⟩
      unfold hashedName at h ⊢
      rw [e]
      exact h

example : hashedName "logo.dark.png".toList [1#8, 2#8] = some ("logo.dark.".toList ++ getHash [1#8, 2#8] ++ ".png".toList) := by decide +kernel
example : hashedName "LICENSE".toList [1#8] = none := by decide +kernel

/-! ## Builds -/

/-- A build succeeds exactly if the code compiles and every included file has an extension. -/
theorem C63_succeeds (bs : List Build) (b : Build) (hp : b.package ≠ []) :
    (builds (bs ++ [b])).index.isSome ↔ (b.compiles = true ∧ ∀ f ∈ b.uses, HasExtension f.name) := by
  have hexp : ∀ (fs : List File) (d : Dir), (expand b.publicPath d fs).2.2 = true ↔ ∀ f ∈ fs, HasExtension f.name := by
    intro fs
    induction fs with
    | nil => simp [expand]
    | cons f fs ih =>
        intro d
        simp only [expand, bundleFile, Dir.saveHashed]
        cases hn : hashedName f.name f.content with
        | none =>
            simp only [Bool.false_eq_true, false_iff]
            intro h
            obtain ⟨s, e, h1, h2, h3, h4⟩ := h f (by simp)
            rw [(C63_names f.name f.content).1 s e h1 h2 h3 h4] at hn
            cases hn
        | some out =>
            have hf : HasExtension f.name := by
              by_contra h
              rw [(C63_names f.name f.content).2.1 h] at hn
              cases hn
            simp only [List.mem_cons, forall_eq_or_imp, hf, true_and]
            exact ih _
  have hb : builds (bs ++ [b]) = build (builds bs) b := by simp [builds]
  rw [hb, ← hexp b.uses (builds bs).included]
  have hrun : ∀ d : Dir, ∃ r, d.saveHashed ⟨wasmRunJs, b.runJs⟩ = some r := by
    intro d
    unfold Dir.saveHashed
    simp only
    rw [(C63_names wasmRunJs b.runJs).1 "wasm_run".toList "js".toList (by decide) (by decide) (by decide) (by decide)]
    exact ⟨_, rfl⟩
  have hwasm : ∀ (c : Bytes) (d : Dir), ∃ r, d.saveHashed ⟨b.package ++ ".wasm".toList, c⟩ = some r := by
    intro c d
    unfold Dir.saveHashed
    simp only
    rw [(C63_names _ c).1 b.package "wasm".toList (by rfl) hp (by decide) (by
      intro h
      have := congrArg List.length h
      simp at this)]
    exact ⟨_, rfl⟩
  simp only [build]
  cases hc : b.compiles with
  | false => simp
  | true =>
      cases hx : (expand b.publicPath (builds bs).included b.uses).2.2 with
      | false => simp
      | true =>
          simp only [Bool.and_self, ↓reduceIte, and_self, iff_true]
          obtain ⟨r, hr⟩ := hrun Dir.empty
          rw [hr]
          simp only
          have hw : ∀ d : Dir, ∃ r, saveWasm d b = some r := by
            intro d
            unfold saveWasm
            cases b.optimized with
            | none => exact hwasm _ _
            | some c =>
                obtain ⟨r, hr⟩ := hwasm c (d.save (b.package ++ ".wasm".toList) c)
                simp only
                rw [hr]
                exact ⟨_, rfl⟩
          obtain ⟨r', hr'⟩ := hw (saveMap r.1 b r.2)
          rw [hr']
          rfl

/-- Everything the last build has left in the destination. -/
theorem last_build {bs : List Build} {b : Build} {idx : Index} (h : (builds (bs ++ [b])).index = some idx) (hp : '.' ∉ b.package) :
    ∃ runName wasmName, hashedName wasmRunJs b.runJs = some runName ∧
      hashedName (b.package ++ ".wasm".toList) (b.optimized.getD b.wasm) = some wasmName ∧
      idx = ⟨b.publicPath ++ '/' :: runName, b.publicPath ++ '/' :: wasmName⟩ ∧
      ∀ n, (builds (bs ++ [b])).dest n = match (builds (bs ++ [b])).included n with
        | some c => some c
        | none => if n = wasmName then some (b.optimized.getD b.wasm) else
            if n = wasmRunJsMap ∧ b.sourceMap.isSome then b.sourceMap.map (· runName) else
              if n = runName then some b.runJs else none := by
  have hb : builds (bs ++ [b]) = build (builds bs) b := by simp [builds]
  rw [hb] at h ⊢
  simp only [build] at h ⊢
  split at h
  · rename_i hc
    rw [if_pos hc]
    have hrun : ∀ d : Dir, d.saveHashed ⟨wasmRunJs, b.runJs⟩ = (hashedName wasmRunJs b.runJs).map fun n => (d.save n b.runJs, n) := by
      intro d
      unfold Dir.saveHashed
      simp only
      cases hashedName wasmRunJs b.runJs <;> rfl
    rw [hrun] at h ⊢
    cases hr : hashedName wasmRunJs b.runJs with
    | none => rw [hr] at h; simp at h
    | some runName =>
        rw [hr] at h
        simp only [Option.map_some] at h ⊢
        generalize hd : saveMap (Dir.empty.save runName b.runJs) b runName = d at h ⊢
        have hdn : ∀ n, d n = if n = wasmRunJsMap ∧ b.sourceMap.isSome then b.sourceMap.map (· runName) else
              if n = runName then some b.runJs else none := by
          intro n
          rw [← hd, saveMap]
          cases b.sourceMap with
          | none => simp [Dir.save, Dir.empty]
          | some text => simp [Dir.save, Dir.empty]
        have hw : saveWasm d b = (hashedName (b.package ++ ".wasm".toList) (b.optimized.getD b.wasm)).map fun n =>
            ((match b.optimized with
              | some c => ((d.save (b.package ++ ".wasm".toList) c).save n c).remove (b.package ++ ".wasm".toList)
              | none => d.save n b.wasm), n) := by
          unfold saveWasm Dir.saveHashed
          cases b.optimized with
          | none =>
              simp only [Option.getD_none]
              cases hashedName (b.package ++ ".wasm".toList) b.wasm <;> rfl
          | some c =>
              simp only [Option.getD_some]
              cases hashedName (b.package ++ ".wasm".toList) c <;> rfl
        rw [hw] at h ⊢
        cases hn : hashedName (b.package ++ ".wasm".toList) (b.optimized.getD b.wasm) with
        | none => rw [hn] at h; simp at h
        | some wasmName =>
            rw [hn] at h
            simp only [Option.map_some, Option.some.injEq] at h ⊢
            refine ⟨runName, wasmName, rfl, rfl, h.symm, ?_⟩
            intro n
            simp only [copyIncluded]
            have single : ∀ {x : Name} {c : Bytes} {out : Name}, hashedName x c = some out → out ≠ b.package ++ ".wasm".toList := by
              intro x c out hx e
              subst e
              exact hashedName_single (stem := b.package) (ext := "wasm".toList) hp (by decide) hx
            cases (expand b.publicPath (builds bs).included b.uses).1 n with
            | some c => rfl
            | none =>
                simp only
                rw [← hdn n]
                have hmap : wasmRunJsMap ≠ b.package ++ ".wasm".toList := by
                  intro e
                  have e2 : wasmRunJsMap = "wasm_run.js".toList ++ '.' :: "map".toList := by decide
                  rw [e2] at e
                  have := (dot_split (x := "wasm_run.js".toList) (y := b.package) (a := "map".toList) (b := "wasm".toList) (by decide) (by decide) e).2
                  revert this; decide
                have hdp : d (b.package ++ ".wasm".toList) = none := by
                  rw [hdn, if_neg (by rintro ⟨e, -⟩; exact hmap e.symm), if_neg (fun e => single hr e.symm)]
                cases b.optimized with
                | none => simp only [Dir.save, Option.getD_none]
                | some c =>
                    simp only [Dir.save, Dir.remove, Option.getD_some]
                    by_cases e : n = b.package ++ ".wasm".toList
                    · rw [if_pos e, if_neg (fun e' => single hn (e'.symm.trans e)), e, hdp]
                    · rw [if_neg e, if_neg e]
  · cases h

theorem serve_name {w : World} {idx : Index} (hi : w.index = some idx) {p wasmName name : List Char} (hw : idx.wasm = p ++ '/' :: wasmName)
    (hs : '/' ∉ wasmName) (hp : PathOnly p) (hn : PathOnly name) : serve w (p ++ '/' :: name) = w.dest name := by
  unfold serve
  rw [hi]
  simp only
  have : Verif.Ssr.getBaseDir idx.wasm = some p := by
    rw [hw]
    have := Verif.Ssr.getBaseDir_eq p hs
    simpa using this
  rw [this]
  simp only
  have ht : (p ++ '/' :: name).takeWhile (fun c => decide (c ≠ '?' ∧ c ≠ '#')) = p ++ '/' :: name := by
    have := List.takeWhile_append_of_pos (p := fun c => decide (c ≠ '?' ∧ c ≠ '#')) (l₁ := p ++ '/' :: name) (l₂ := []) ?_
    · simpa using this
    intro c hc
    have : c ≠ '?' ∧ c ≠ '#' := by
      constructor
      · rintro rfl
        rcases List.mem_append.mp hc with h | h
        · exact hp.1 h
        · rcases List.mem_cons.mp h with h | h
          · revert h; decide
          · exact hn.1 h
      · rintro rfl
        rcases List.mem_append.mp hc with h | h
        · exact hp.2 h
        · rcases List.mem_cons.mp h with h | h
          · revert h; decide
          · exact hn.2 h
    simpa using this
  rw [ht, Verif.Ssr.stripPrefix_iff.mpr rfl]
  rfl

theorem slash_split {a b : List Char} (ha : '/' ∉ a) (hb : '/' ∉ b) {x y : List Char} (h : x ++ '/' :: a = y ++ '/' :: b) : x = y ∧ a = b := by
  have h1 := Verif.Ssr.getBaseDir_eq x ha
  have h2 := Verif.Ssr.getBaseDir_eq y hb
  simp only [List.append_assoc, List.singleton_append] at h1 h2
  rw [h, h2] at h1
  cases h1
  exact ⟨rfl, by simpa using h⟩

theorem hashed_slash {n out : Name} {c : Bytes} (hn : '/' ∉ n) (h : hashedName n c = some out) : '/' ∉ out := by
  obtain ⟨s, e, h1, h2, h3⟩ := hashedName_eq h
  subst h1 h3
  simp only [List.mem_append, List.mem_cons, not_or] at hn ⊢
  refine ⟨⟨hn.1, by decide, ?_⟩, by decide, hn.2.2⟩
  intro hm
  rcases hash_safe c _ hm with h | h | h <;> revert h <;> decide

theorem hashed_path {n out : Name} {c : Bytes} (hn : PathOnly n) (h : hashedName n c = some out) : PathOnly out := by
  obtain ⟨s, e, h1, h2, h3⟩ := hashedName_eq h
  subst h1 h3
  simp only [PathOnly, List.mem_append, List.mem_cons, not_or] at hn ⊢
  refine ⟨⟨⟨hn.1.1, by decide, ?_⟩, by decide, hn.1.2.2⟩, ⟨⟨hn.2.1, by decide, ?_⟩, by decide, hn.2.2.2⟩⟩
  · intro hm
    rcases hash_safe c _ hm with h | h | h <;> revert h <;> decide
  · intro hm
    rcases hash_safe c _ hm with h | h | h <;> revert h <;> decide

/-- The names of files are single components of paths. -/
def Build.Proper (b : Build) : Prop := '.' ∉ b.package ∧ '/' ∉ b.package ∧ PathOnly b.package ∧ ∀ f ∈ b.uses, '/' ∉ f.name

/-- After a build that succeeds, the urls in the index are answered with the script and the wasm file of that build, and every url that an
invocation of `include_static!` stands for, expanded in this build or in any earlier one with the same public path, is answered with the file
that it was given, as long as no two files of one name have the same checksum.

Partial: the names have no characters that end the path of a url (see `C63_fragment_violated`). -/
theorem C63_served_partial (bs : List Build) (b : Build) (idx : Index) (h : (builds (bs ++ [b])).index = some idx)
    (hproper : ∀ x ∈ bs ++ [b], x.Proper) (hpath : PathOnly b.publicPath) (hcol : NoCollision ((bs ++ [b]).flatMap Build.files)) :
    serve (builds (bs ++ [b])) idx.runJs = some b.runJs ∧
    serve (builds (bs ++ [b])) idx.wasm = some (b.optimized.getD b.wasm) ∧
    ∀ name content, (b.publicPath ++ '/' :: name, content) ∈ (builds (bs ++ [b])).compiled → '/' ∉ name → PathOnly name →
      serve (builds (bs ++ [b])) (b.publicPath ++ '/' :: name) = some content := by
  have hb := hproper b (by simp)
  obtain ⟨runName, wasmName, hr, hw, hidx, hdest⟩ := last_build h hb.1
  have huse : ∀ x ∈ bs ++ [b], ∀ f ∈ x.uses, f ∈ (bs ++ [b]).flatMap Build.files := by
    intro x hx f hf
    exact List.mem_flatMap.mpr ⟨x, hx, by simp [Build.files, hf]⟩
  have hinv := builds_inv _ (bs ++ [b]) huse
  have hsl : '/' ∉ b.package ++ ".wasm".toList := by
    intro hm
    rcases List.mem_append.mp hm with hm | hm
    · exact hb.2.1 hm
    · revert hm; decide
  have hpo : PathOnly (b.package ++ ".wasm".toList) := by
    constructor
    · intro hm
      rcases List.mem_append.mp hm with hm | hm
      · exact hb.2.2.1.1 hm
      · revert hm; decide
    · intro hm
      rcases List.mem_append.mp hm with hm | hm
      · exact hb.2.2.1.2 hm
      · revert hm; decide
  have hwasm : idx.wasm = b.publicPath ++ '/' :: wasmName := by rw [hidx]
  have hrun : idx.runJs = b.publicPath ++ '/' :: runName := by rw [hidx]
  have hserve := fun (name : List Char) => serve_name (w := builds (bs ++ [b])) (name := name) h hwasm (hashed_slash hsl hw) hpath
  -- a file of the build keeps its content
  have hkeep : ∀ f ∈ b.files, ∀ n, hashedName f.name f.content = some n → ∀ c, (builds (bs ++ [b])).included n = some c → c = f.content := by
    intro f hf n hn c hc
    obtain ⟨g, hg, h1, h2⟩ := hinv.saved n c hc
    obtain ⟨e1, e2⟩ := hashedName_injective h1 hn
    rw [← h2]
    exact hcol g hg f (List.mem_flatMap.mpr ⟨b, by simp, hf⟩) e1 e2
  refine ⟨?_, ?_, ?_⟩
  · rw [hrun, hserve _ (hashed_path (by unfold PathOnly; decide) hr), hdest]
    cases hc : (builds (bs ++ [b])).included runName with
    | some c => rw [hkeep ⟨wasmRunJs, b.runJs⟩ (by simp [Build.files]) _ hr c hc]
    | none =>
        simp only
        have hne : runName ≠ wasmName := by
          intro e
          rw [e] at hr
          have := (hashedName_injective hr hw).1
          have e1 : wasmRunJs = "wasm_run".toList ++ '.' :: "js".toList := by decide
          rw [e1] at this
          have := (dot_split (x := "wasm_run".toList) (y := b.package) (a := "js".toList) (b := "wasm".toList) (by decide) (by decide) this).2
          revert this; decide
        rw [if_neg hne, if_neg (by rintro ⟨e, -⟩; exact hashedName_map (e ▸ hr))]
        simp
  · rw [hwasm, hserve _ (hashed_path hpo hw), hdest]
    cases hc : (builds (bs ++ [b])).included wasmName with
    | some c => rw [hkeep ⟨_, b.optimized.getD b.wasm⟩ (by simp [Build.files]) _ hw c hc]
    | none => simp
  · intro name content hm hs hpn
    rw [hserve name hpn]
    obtain ⟨f, hf, n, p, h1, h2, h3⟩ := hinv.compiled _ hm
    simp only [Prod.mk.injEq] at h2
    obtain ⟨h2, h4⟩ := h2
    have hn : '/' ∉ n := by
      obtain ⟨x, hx, hfx⟩ := List.mem_flatMap.mp hf
      have hx := hproper x hx
      simp only [Build.files, List.mem_cons] at hfx
      apply hashed_slash _ h1
      rcases hfx with rfl | rfl | hfx
      · show '/' ∉ wasmRunJs
        decide
      · intro hm
        rcases List.mem_append.mp hm with hm | hm
        · exact hx.2.1 hm
        · revert hm; decide
      · exact hx.2.2.2 f hfx
    obtain ⟨e1, e2⟩ := slash_split hs hn h2
    subst e2
    obtain ⟨c, hc⟩ := Option.isSome_iff_exists.mp h3
    rw [hinv.complete (by rw [h]; rfl) _ _ hc, h4]
    obtain ⟨g, hg, g1, g2⟩ := hinv.saved name c hc
    obtain ⟨e1, e2⟩ := hashedName_injective g1 h1
    rw [← g2, hcol g hg f hf e1 e2]

/-- The server gives out nothing but the files of the builds. -/
theorem C63_only (bs : List Build) (url : List Char) (content : Bytes) (hp : ∀ b ∈ bs, '.' ∉ b.package)
    (h : serve (builds bs) url = some content) :
    (∃ b ∈ bs, ∃ f ∈ b.files, f.content = content) ∨ (∃ b ∈ bs, ∃ text name, b.sourceMap = some text ∧ content = text name) := by
  rcases List.eq_nil_or_concat bs with rfl | ⟨bs, b, rfl⟩
  · simp [serve, builds] at h
  · rw [List.concat_eq_append] at *
    cases hi : (builds (bs ++ [b])).index with
    | none => simp [serve, hi] at h
    | some idx =>
        have hinv := builds_inv ((bs ++ [b]).flatMap Build.uses) (bs ++ [b]) (fun x hx f hf => List.mem_flatMap.mpr ⟨x, hx, hf⟩)
        obtain ⟨runName, wasmName, hr, hw, hidx, hdest⟩ := last_build hi (hp b (by simp))
        have hd : ∃ n, (builds (bs ++ [b])).dest n = some content := by
          unfold serve at h
          rw [hi] at h
          simp only at h
          split at h
          · cases h
          · split at h
            · exact ⟨_, h⟩
            · cases h
        obtain ⟨n, hn⟩ := hd
        rw [hdest] at hn
        split at hn
        · rename_i c hc
          cases hn
          obtain ⟨f, hf, -, h2⟩ := hinv.saved n _ hc
          obtain ⟨x, hx, hf⟩ := List.mem_flatMap.mp hf
          exact Or.inl ⟨x, hx, f, by simp [Build.files, hf], h2⟩
        · split at hn
          · cases hn
            exact Or.inl ⟨b, by simp, ⟨_, _⟩, by simp only [Build.files, List.mem_cons]; exact Or.inr (Or.inl rfl), rfl⟩
          · split at hn
            · cases hm : b.sourceMap with
              | none => rw [hm] at hn; simp at hn
              | some text =>
                  rw [hm] at hn
                  simp at hn
                  exact Or.inr ⟨b, by simp, text, runName, hm, hn.symm⟩
            · split at hn
              · cases hn
                exact Or.inl ⟨b, by simp, ⟨_, _⟩, by simp only [Build.files, List.mem_cons]; exact Or.inl rfl, rfl⟩
              · cases hn

/-- A url of `include_static!` that a browser may have kept from an earlier build, of this or of another machine, stands for a file with the
same name and the same checksum. -/
theorem C63_same_url (bs bs' : List Build) (url : List Char) (c c' : Bytes) (hp : ∀ b ∈ bs ++ bs', b.Proper)
    (h : (url, c) ∈ (builds bs).compiled) (h' : (url, c') ∈ (builds bs').compiled) : getHash c = getHash c' := by
  have key : ∀ (bs : List Build), (∀ b ∈ bs, b.Proper) → ∀ c, (url, c) ∈ (builds bs).compiled →
      ∃ x p n, '/' ∉ n ∧ url = p ++ '/' :: n ∧ hashedName x c = some n := by
    intro bs hp c h
    have hinv := builds_inv (bs.flatMap Build.uses) bs (fun x hx f hf => List.mem_flatMap.mpr ⟨x, hx, hf⟩)
    obtain ⟨f, hf, n, p, h1, h2, -⟩ := hinv.compiled _ h
    simp only [Prod.mk.injEq] at h2
    obtain ⟨x, hx, hf⟩ := List.mem_flatMap.mp hf
    refine ⟨f.name, p, n, hashed_slash ((hp x hx).2.2.2 f hf) h1, h2.1, ?_⟩
    rw [h2.2]; exact h1
  obtain ⟨x, p, n, hn, hu, hh⟩ := key bs (fun b hb => hp b (by simp [hb])) c h
  obtain ⟨x', p', n', hn', hu', hh'⟩ := key bs' (fun b hb => hp b (by simp [hb])) c' h'
  rw [hu] at hu'
  obtain ⟨-, e⟩ := slash_split hn hn' hu'
  subst e
  exact (hashedName_injective hh hh').2

/-! ## What does not hold -/

/-- Two builds of a page with a picture, with a source map. -/
def exBuild (publicPath : List Char) (map : Bytes) (compiles : Bool) (uses : List File) : Build :=
  { publicPath, uses, compiles, runJs := [1#8, 2#8], sourceMap := some fun _ => map, package := "app".toList, wasm := [3#8], optimized := some [4#8] }

def exFile : File := ⟨"a.png".toList, [9#8, 9#8]⟩

/-- The hypotheses of `C63_served_partial` are met by two builds, the second of which expands nothing again. -/
example : let bs := [exBuild "/build".toList [5#8] true [exFile], exBuild "/build".toList [6#8] true []]
    (builds bs).index.isSome ∧ (builds bs).compiled.length = 1 ∧
    (∀ u ∈ (builds bs).compiled, serve (builds bs) u.1 = some u.2) := by decide +kernel

/-- The source map keeps its name from build to build, though its answers may be kept for a day: a browser may use the map of an earlier build
with the script of the next one. -/
theorem C63_source_map_violated : ∃ (b b' : Build) (url : List Char) (m m' : Bytes),
    serve (builds [b]) url = some m ∧ serve (builds [b, b']) url = some m' ∧ m ≠ m' ∧ maxAge (some m) = 86400 :=
  ⟨exBuild "/build".toList [5#8] true [], exBuild "/build".toList [6#8] true [], "/build/wasm_run.js.map".toList, [5#8], [6#8], by decide +kernel⟩

/-- A build that fails leaves nothing to serve: the urls of the build before are gone, and the answers that say so may be kept for a day. -/
theorem C63_failed_build_violated : ∃ (b b' : Build) (url : List Char) (c : Bytes),
    serve (builds [b]) url = some c ∧ b'.compiles = false ∧ serve (builds [b, b']) url = none ∧ maxAge none = 86400 :=
  ⟨exBuild "/build".toList [5#8] true [], exBuild "/build".toList [6#8] false [], "/build/wasm_run.js.map".toList, [5#8], by decide +kernel⟩

/-- After the public path is changed, an invocation that is not expanded again, as in a crate that cargo does not compile again, stands for a
url that is not served. -/
theorem C63_public_path_violated : ∃ (b b' : Build) (url : List Char) (c : Bytes),
    (url, c) ∈ (builds [b, b']).compiled ∧ serve (builds [b]) url = some c ∧ (builds [b, b']).index.isSome ∧ serve (builds [b, b']) url = none :=
  ⟨exBuild "/build".toList [5#8] true [exFile], exBuild "/app".toList [6#8] true [], "/build/a.".toList ++ getHash [9#8, 9#8] ++ ".png".toList,
    [9#8, 9#8], by decide +kernel⟩

/-- A file with `#` in its name gets a url that is not served. -/
theorem C63_fragment_violated : ∃ (b : Build) (url : List Char) (c : Bytes),
    (url, c) ∈ (builds [b]).compiled ∧ (builds [b]).index.isSome ∧ serve (builds [b]) url = none :=
  ⟨exBuild "/build".toList [5#8] true [⟨"c#.png".toList, [9#8]⟩], "/build/c#.".toList ++ getHash [9#8] ++ ".png".toList, [9#8], by decide +kernel⟩

end Verif.Assets

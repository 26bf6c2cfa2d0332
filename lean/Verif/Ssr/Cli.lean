import Verif.Ssr.Page
/-!
# C42-C44: paths, the watch script, options

Model of vertigo-cli/src/serve/mount_path.rs, `ResponseState::add_watch_script`
(response_state.rs) and commons/parse_key_val.rs.  Texts are lists of characters; the positions
Rust uses are byte positions of the same places.
-/
namespace Verif.Ssr

/-! ## Model -/

/-- `str::strip_prefix`. -/
def stripPrefix : List Char → List Char → Option (List Char)
  | [], s => some s
  | _ :: _, [] => none
  | p :: ps, c :: cs => if p = c then stripPrefix ps cs else none

/-- mount_path.rs:63-72; the error is -1. -/
def replacePrefix (publicPath destDir path : List Char) : Option (List Char) :=
  match stripPrefix publicPath path with
  | none => none
  | some rest => some (destDir ++ rest)

/-- `str::split('/')`. -/
def splitSlash : List Char → List (List Char)
  | [] => [[]]
  | c :: cs =>
      if c = '/' then [] :: splitSlash cs
      else
        match splitSlash cs with
        | [] => [[c]]
        | w :: ws => (c :: w) :: ws

/-- `join("/")`. -/
def joinSlash : List (List Char) → List Char
  | [] => []
  | [w] => w
  | w :: ws => w ++ ['/'] ++ joinSlash ws

/-- mount_path.rs:79-92. -/
def getBaseDir (path : List Char) : Option (List Char) :=
  let chunks := (splitSlash path).dropLast
  if chunks = [] then none else some (joinSlash chunks)

/-- mount_path.rs:7-16; the index file is read and parsed elsewhere. -/
structure MountPath where
  publicPath : List Char
  destDir : List Char
  wasmPath : List Char
  deriving DecidableEq

/-- mount_path.rs:19-33: `wasm` is a field of the index file. -/
def MountPath.new (destDir wasm : List Char) : Option MountPath :=
  match getBaseDir wasm with
  | none => none
  | some publicPath => some ⟨publicPath, destDir, wasm⟩

/-- mount_path.rs:43-46. -/
def MountPath.translateToFs (m : MountPath) (httpPath : List Char) : Option (List Char) :=
  replacePrefix m.publicPath m.destDir httpPath

/-- `str::replace`, for a pattern that is not empty; the first argument is the number of characters of a match
still to be passed over. -/
def replaceLoop (pat rep : List Char) : Nat → List Char → List Char
  | _, [] => []
  | k + 1, _ :: cs => replaceLoop pat rep k cs
  | 0, c :: cs =>
      if pat.isPrefixOf (c :: cs) then rep ++ replaceLoop pat rep (pat.length - 1) cs
      else c :: replaceLoop pat rep 0 cs

/-- `str::contains`. -/
def containsText (pat : List Char) : List Char → Bool
  | [] => pat.isEmpty
  | c :: cs => pat.isPrefixOf (c :: cs) || containsText pat cs

/-- response_state.rs:60: the text that starts watching. -/
def startWatch (port : Nat) : List Char :=
  "start_watch('http://127.0.0.1:".toList ++ (toString port).toList ++ "/events');".toList

/-- response_state.rs:62-69, the chunks from the second to the fifth, joined with newlines. `watch` is the
content of watch.js. -/
def watchScript (watch : List Char) (port : Nat) : List Char :=
  "<script>\n".toList ++ watch ++ ['\n'] ++ startWatch port ++ "\n</script>".toList

/-- response_state.rs:56-79. -/
def addWatchScript (watch : List Char) (port : Nat) (r : Response) : Response :=
  if (200 ≤ r.status ∧ r.status < 300) ∧ r.contentType = .html then
    if containsText "</body>".toList r.body then
      { r with body := replaceLoop "</body>".toList (watchScript watch port ++ "\n\n</body>".toList) 0 r.body }
    else { r with body := r.body ++ ['\n'] ++ watchScript watch port }
  else r

/-- `str::find('=')`. -/
def findEq : List Char → Option Nat
  | [] => none
  | c :: cs => if c = '=' then some 0 else (findEq cs).map (· + 1)

/-- commons/parse_key_val.rs:4-15; the two `parse` functions are parameters, errors are
`none`. -/
def parseKeyVal {T U : Type} (parseT : List Char → Option T) (parseU : List Char → Option U) (s : List Char) : Option (T × U) :=
  match findEq s with
  | none => none
  | some pos =>
      match parseT (s.take pos) with
      | none => none
      | some k =>
          match parseU (s.drop (pos + 1)) with
          | none => none
          | some v => some (k, v)

/-! ## Specification -/

/-- A path is the public path or below it. -/
def Below (publicPath path : List Char) : Prop := path = publicPath ∨ ∃ rest, path = publicPath ++ ['/'] ++ rest

/-- The text occurs in the other only at the end of `a`, in `a ++ pat ++ b`. -/
def OnlyThere (pat a b : List Char) : Prop := ∀ a' b', a ++ pat ++ b = a' ++ pat ++ b' → a' = a

/-! ## Proofs -/

theorem stripPrefix_iff : ∀ {p s r : List Char}, stripPrefix p s = some r ↔ s = p ++ r
  | [], s, r => by simp [stripPrefix]
  | p :: ps, [], r => by simp [stripPrefix]
  | p :: ps, c :: cs, r => by
      simp only [stripPrefix, List.cons_append, List.cons.injEq]
      split
      · rename_i h
        rw [stripPrefix_iff]; simp [h]
      · rename_i h
        simp [Ne.symm h]

theorem splitSlash_ne : ∀ s, splitSlash s ≠ []
  | [] => by simp [splitSlash]
  | c :: cs => by
      rw [splitSlash]
      split
      · simp
      · split <;> simp

theorem splitSlash_file {file : List Char} (h : '/' ∉ file) : splitSlash file = [file] := by
  induction file with
  | nil => rfl
  | cons c cs ih =>
    simp only [List.mem_cons, not_or] at h
    rw [splitSlash, if_neg (Ne.symm h.1), ih h.2]

theorem splitSlash_dir (dir : List Char) {file : List Char} (h : '/' ∉ file) :
    splitSlash (dir ++ ['/'] ++ file) = splitSlash dir ++ [file] := by
  induction dir with
  | nil => simp [splitSlash, splitSlash_file h]
  | cons c cs ih =>
    simp only [List.cons_append, splitSlash, ih]
    split
    · rfl
    · cases hs : splitSlash cs with
      | nil => exact absurd hs (splitSlash_ne cs)
      | cons w ws => simp

theorem join_split : ∀ s, joinSlash (splitSlash s) = s
  | [] => rfl
  | c :: cs => by
      have ih := join_split cs
      rw [splitSlash]
      split
      · rename_i h
        cases hs : splitSlash cs with
        | nil => exact absurd hs (splitSlash_ne cs)
        | cons w ws =>
          rw [hs] at ih
          simp [joinSlash, ih, h]
      · cases hs : splitSlash cs with
        | nil => exact absurd hs (splitSlash_ne cs)
        | cons w ws =>
          rw [hs] at ih
          cases ws with
          | nil => simpa [joinSlash] using ih
          | cons w' ws =>
            simp only [joinSlash, List.cons_append] at ih ⊢
            rw [← ih]

theorem getBaseDir_eq (dir : List Char) {file : List Char} (h : '/' ∉ file) : getBaseDir (dir ++ ['/'] ++ file) = some dir := by
  have : splitSlash dir ≠ [] := splitSlash_ne dir
  simp only [getBaseDir, splitSlash_dir dir h, List.dropLast_concat, if_neg this, join_split]

theorem isPrefixOf_iff (p s : List Char) : p.isPrefixOf s = true ↔ ∃ b, s = p ++ b := by
  rw [List.isPrefixOf_iff_prefix]
  exact ⟨fun ⟨b, h⟩ => ⟨b, h.symm⟩, fun ⟨b, h⟩ => ⟨b, h.symm⟩⟩

theorem containsText_iff (pat : List Char) : ∀ s, containsText pat s = true ↔ ∃ a b, s = a ++ pat ++ b
  | [] => by
      simp only [containsText, List.isEmpty_iff]
      constructor
      · rintro rfl; exact ⟨[], [], rfl⟩
      · rintro ⟨a, b, h⟩
        have := congrArg List.length h
        simp only [List.length_nil, List.length_append] at this
        exact List.eq_nil_of_length_eq_zero (by omega)
  | c :: cs => by
      simp only [containsText, Bool.or_eq_true, isPrefixOf_iff, containsText_iff pat cs]
      constructor
      · rintro (⟨b, h⟩ | ⟨a, b, h⟩)
        · exact ⟨[], b, h⟩
        · exact ⟨c :: a, b, by simp [h]⟩
      · rintro ⟨a, b, h⟩
        cases a with
        | nil => exact .inl ⟨b, h⟩
        | cons x a =>
          simp only [List.cons_append, List.cons.injEq] at h
          exact .inr ⟨a, b, h.2⟩

theorem replaceLoop_skip (pat rep : List Char) : ∀ (l s : List Char), replaceLoop pat rep l.length (l ++ s) = replaceLoop pat rep 0 s
  | [], _ => rfl
  | _ :: l, s => by simpa [replaceLoop] using replaceLoop_skip pat rep l s

theorem replaceLoop_none (pat rep : List Char) : ∀ s, (¬ ∃ a b, s = a ++ pat ++ b) → replaceLoop pat rep 0 s = s
  | [], _ => rfl
  | c :: cs, h => by
      rw [replaceLoop, if_neg, replaceLoop_none pat rep cs]
      · rintro ⟨a, b, h'⟩
        exact h ⟨c :: a, b, by simp [h']⟩
      · rw [isPrefixOf_iff]
        rintro ⟨b, h'⟩
        exact h ⟨[], b, h'⟩

theorem replaceLoop_one {pat : List Char} (hp : pat ≠ []) (rep : List Char) : ∀ {a b : List Char}, OnlyThere pat a b →
    replaceLoop pat rep 0 (a ++ pat ++ b) = a ++ rep ++ b
  | [], b, h => by
      cases pat with
      | nil => exact absurd rfl hp
      | cons p ps =>
        rw [List.nil_append, List.cons_append, replaceLoop, if_pos]
        · rw [List.length_cons, Nat.add_sub_cancel, replaceLoop_skip, replaceLoop_none, List.nil_append]
          rintro ⟨a', b', hb⟩
          have := h (p :: ps ++ a') b' (by simp [hb])
          cases this
        · rw [isPrefixOf_iff]; exact ⟨b, rfl⟩
  | c :: a, b, h => by
      rw [List.cons_append, List.cons_append, replaceLoop, if_neg, replaceLoop_one hp rep]
      · rfl
      · intro a' b' h'
        have := h (c :: a') b' (by simpa using h')
        exact (List.cons.inj this).2
      · rw [isPrefixOf_iff]
        rintro ⟨b', h'⟩
        have := h [] b' (by simpa using h')
        cases this

theorem findEq_eq : ∀ {k : List Char} (v : List Char), '=' ∉ k → findEq (k ++ ['='] ++ v) = some k.length
  | [], v, _ => by simp [findEq]
  | c :: k, v, h => by
      simp only [List.mem_cons, not_or] at h
      have := findEq_eq v h.2
      simp only [List.cons_append, findEq, if_neg (Ne.symm h.1), this]
      rfl

theorem findEq_none : ∀ {s : List Char}, '=' ∉ s → findEq s = none
  | [], _ => rfl
  | c :: s, h => by
      simp only [List.mem_cons, not_or] at h
      simp only [findEq, if_neg (Ne.symm h.1), findEq_none h.2]
      rfl

/-! ## Theorems -/

/-- **C42, the prefix.** A path is translated exactly if it starts with the public path, and
then only that prefix is replaced. -/
theorem C42_prefix (m : MountPath) (path file : List Char) :
    m.translateToFs path = some file ↔ ∃ rest, path = m.publicPath ++ rest ∧ file = m.destDir ++ rest := by
  rw [MountPath.translateToFs, replacePrefix]
  constructor
  · intro h
    cases hs : stripPrefix m.publicPath path with
    | none => rw [hs] at h; cases h
    | some rest => rw [hs] at h; cases h; exact ⟨rest, stripPrefix_iff.mp hs, rfl⟩
  · rintro ⟨rest, h1, rfl⟩
    rw [stripPrefix_iff.mpr h1]

/-- **C42, the program.** The only path that is translated (server_state.rs:102-103) is that of
the WebAssembly file in the index: it is found directly in the destination directory, whatever
the public path is.  An index with a path without `/` is refused. -/
theorem C42_wasm (destDir : List Char) :
    (∀ dir file, '/' ∉ file → ∃ m, MountPath.new destDir (dir ++ ['/'] ++ file) = some m ∧ m.publicPath = dir ∧
      m.translateToFs m.wasmPath = some (destDir ++ ['/'] ++ file)) ∧
    (∀ file, '/' ∉ file → MountPath.new destDir file = none) := by
  constructor
  · intro dir file h
    refine ⟨⟨dir, destDir, dir ++ ['/'] ++ file⟩, by rw [MountPath.new, getBaseDir_eq dir h], rfl, ?_⟩
    rw [C42_prefix]
    exact ⟨['/'] ++ file, by simp, by simp⟩
  · intro file h
    simp [MountPath.new, getBaseDir, splitSlash_file h]

/-- Below the public path the translation stays below the destination directory. -/
theorem C42_below_partial (m : MountPath) {path : List Char} (h : Below m.publicPath path) :
    ∃ file, m.translateToFs path = some file ∧ Below m.destDir file := by
  rcases h with rfl | ⟨rest, rfl⟩
  · exact ⟨m.destDir, (C42_prefix m _ _).mpr ⟨[], by simp, by simp⟩, .inl rfl⟩
  · exact ⟨m.destDir ++ ['/'] ++ rest, (C42_prefix m _ _).mpr ⟨['/'] ++ rest, by simp, by simp⟩, .inr ⟨rest, rfl⟩⟩

/-- What is missing in `C42_below_partial`: paths that only start with the same characters are
translated too, and leave the directory. -/
theorem C42_boundary_violated : ∃ (m : MountPath) (path file : List Char),
    m.translateToFs path = some file ∧ ¬ Below m.publicPath path ∧ ¬ Below m.destDir file := by
  refine ⟨⟨"/build".toList, "out".toList, []⟩, "/builder/x".toList, "outer/x".toList, by decide, ?_, ?_⟩
  · rintro (h | ⟨rest, h⟩)
    · revert h; decide
    · have := congrArg (List.take 7) h
      simp at this
  · rintro (h | ⟨rest, h⟩)
    · revert h; decide
    · have := congrArg (List.take 4) h
      simp at this

/-- **C43, other responses.** Errors and plain responses are left alone. -/
theorem C43_others (watch : List Char) (port : Nat) (r : Response) (h : r.status ≥ 300 ∨ r.contentType = .plain) :
    addWatchScript watch port r = r := by
  rw [addWatchScript, if_neg]
  rintro ⟨⟨_, h1⟩, h2⟩
  rcases h with h | h
  · omega
  · rw [h] at h2; cases h2

/-- The script for watching: the content of watch.js, and the call that starts it with the address of the server that tells about changes. -/
def script (watch : List Char) (port : Nat) : List Char :=
  "<script>\n".toList ++ watch ++ "\nstart_watch('http://127.0.0.1:".toList ++ (toString port).toList ++ "/events');\n</script>".toList

theorem script_eq (watch : List Char) (port : Nat) : watchScript watch port = script watch port := by
  have h1 : "\nstart_watch('http://127.0.0.1:".toList = ['\n'] ++ "start_watch('http://127.0.0.1:".toList := by decide
  have h2 : "/events');\n</script>".toList = "/events');".toList ++ "\n</script>".toList := by decide
  unfold watchScript script startWatch
  generalize (toString port).toList = d
  rw [h1, h2]
  simp only [List.append_assoc]

/-- **C43.** In a page with one closing body tag the script stands before this tag, and nothing
else changes; a page without it has the script at the end. -/
theorem C43_inserted_partial (watch : List Char) (port : Nat) (r : Response) (hs : 200 ≤ r.status ∧ r.status < 300) (hc : r.contentType = .html) :
    (∀ a b, r.body = a ++ "</body>".toList ++ b → OnlyThere "</body>".toList a b →
      addWatchScript watch port r = { r with body := a ++ script watch port ++ "\n\n</body>".toList ++ b }) ∧
    ((¬ ∃ a b, r.body = a ++ "</body>".toList ++ b) →
      addWatchScript watch port r = { r with body := r.body ++ ['\n'] ++ script watch port }) := by
  rw [← script_eq]
  constructor
  · intro a b hb ho
    have : containsText "</body>".toList r.body = true := (containsText_iff _ _).mpr ⟨a, b, hb⟩
    rw [addWatchScript, if_pos ⟨hs, hc⟩, if_pos this, hb, replaceLoop_one (by simp) _ ho]
    simp only [List.append_assoc]
  · intro h
    have : containsText "</body>".toList r.body = false := by
      rw [← Bool.not_eq_true, containsText_iff]; exact h
    rw [addWatchScript, if_pos ⟨hs, hc⟩, if_neg (by rw [this]; exact Bool.false_ne_true)]

/-- What is missing in `C43_inserted_partial`: a style can contain the closing tag, and then the script is
inserted there as well (inside the style). -/
theorem C43_twice_violated : ∃ (css : List (String × String)),
    let page := buildResponse htmlEscape ⟨"r", "w"⟩ [] (.element "html" {} [.element "body" {} []]) css
    let body := (addWatchScript ['W'] 80 page).body
    ∃ a b c, body = a ++ script ['W'] 80 ++ b ++ script ['W'] 80 ++ c := by
  refine ⟨[(".a", "content: '</body>'")], ?_⟩
  refine ⟨"<!DOCTYPE html>\n<html>\n  <body>\n    <style>.a { content: '".toList,
    "\n\n</body>' }</style>\n    <script type=\"module\" data-vertigo-run-wasm=\"w\" src=\"r\">\n    </script>\n  ".toList,
    "\n\n</body>\n</html>".toList, by decide +kernel⟩

/-- **C44.** `KEY=value` is split at the first `=`; the value can be any text. -/
theorem C44_split {T U : Type} (parseT : List Char → Option T) (parseU : List Char → Option U) {k : List Char} (v : List Char)
    (h : '=' ∉ k) :
    parseKeyVal parseT parseU (k ++ ['='] ++ v) =
      (parseT k).bind fun k => (parseU v).bind fun v => some (k, v) := by
  have h2 : (k ++ ['='] ++ v).drop (k.length + 1) = v := by
    have : (k ++ ['=']).length = k.length + 1 := by simp
    rw [← this, List.drop_left]
  have h1 : (k ++ ['='] ++ v).take k.length = k := by rw [List.append_assoc, List.take_left]
  simp only [parseKeyVal, findEq_eq v h, h2, h1]
  cases parseT k <;> simp only [Option.bind]
  cases parseU v <;> rfl

/-- **C44, strings.** With strings on both sides, as in the options of `vertigo serve`. -/
theorem C44_strings : (∀ k v : List Char, '=' ∉ k → parseKeyVal some some (k ++ ['='] ++ v) = some (k, v)) ∧
    (∀ s : List Char, '=' ∉ s → parseKeyVal (T := List Char) (U := List Char) some some s = none) := by
  refine ⟨fun k v h => by rw [C44_split some some v h]; rfl, fun s h => ?_⟩
  rw [parseKeyVal, findEq_none h]

/-- Cases with everything the theorems speak of. -/
example : MountPath.new "out".toList "/build/app.1.wasm".toList = some ⟨"/build".toList, "out".toList, "/build/app.1.wasm".toList⟩ ∧
    parseKeyVal some some "url=http://x/?a=b".toList = some ("url".toList, "http://x/?a=b".toList) := by decide

example : String.ofList (addWatchScript "w".toList 5555 (.html "<body></body>".toList)).body =
    "<body><script>\nw\nstart_watch('http://127.0.0.1:5555/events');\n</script>\n\n</body>" := by decide +kernel

end Verif.Ssr

import Verif.Css.Split
/-!
# C60: the css! macro

Model of crates/vertigo-macro/src/css.pest and css_parser.rs: the grammar as pest runs it, what is generated from the
parsed rules, and what the generated expression is at run time.  A result `none` is an error at compile time.
-/
namespace Verif.Css.Macro

/-! ## Model: css.pest

Between the parts of a sequence, and between the repetitions of a part, pest skips `WHITESPACE` (none of the rules is
atomic). A repetition that fails gives back the white space before it. An alternative that matches is final. -/

/-- css.pest:316. -/
def ws (c : Char) : Bool := c = ' ' || c = '\t' || c = '\r' || c = '\n'

/-- The white space skipped by pest. -/
def skip (s : Text) : Text := s.dropWhile ws

/-- A string literal of the grammar: the rest of the input. -/
def lit : Text → Text → Option Text
  | [], s => some s
  | _ :: _, [] => none
  | c :: p, d :: s => if c = d then lit p s else none

/-- White space and a literal. -/
def tok (p s : Text) : Option Text := lit p (skip s)

/-- `Pair::as_str`: what has been read of `s` when `rest` is left. -/
def span (s rest : Text) : Text := s.take (s.length - rest.length)

/-- `(!stop ~ ANY)*`: what has been read, and the rest. White space belongs to it if something follows. -/
def cut (stop : Text → Bool) : Text → Text × Text
  | [] => ([], [])
  | c :: s =>
      if ws c then
        let (a, b) := cut stop s
        if a = [] then ([], c :: s) else (c :: a, b)
      else if stop (c :: s) then ([], c :: s)
      else
        let (a, b) := cut stop s
        (c :: a, b)

/-- The next character is one of these. -/
def next (p : Char → Bool) : Text → Bool
  | [] => false
  | c :: _ => p c

/-- `(part)*` after a sequence that skips white space (`p` is not given any). -/
def more (p : Text → Option (α × Text)) : Nat → Text → List α × Text
  | 0, s => ([], s)
  | k + 1, s =>
      match p (skip s) with
      | none => ([], s)
      | some (a, r) =>
          let (as, r) := more p k r
          (a :: as, r)

/-- White space and `colon`, see below. -/
def colonNext : Text → Bool
  | [] => false
  | c :: s => if ws c then colonNext s else c = ':' && !colonNext s

/-- css.pest:300: a colon that is not followed by a `colon`. -/
def colon : Text → Option Text
  | [] => none
  | c :: s => if c = ':' && !colonNext s then some s else none

/-- css.pest:296-297: `{`, the expression up to the first `}`. -/
def expression (s : Text) : Option (Text × Text) :=
  match lit ['{'] s with
  | none => none
  | some s =>
      let (e, s) := cut (next (· = '}')) (skip s)
      match tok ['}'] s with
      | none => none
      | some s => some (e, s)

/-- css.pest:281: the rest of the input. -/
def quoted : Text → Option Text
  | [] => none
  | q :: s =>
      if q = '\'' ∨ q = '"' then
        let (b, s) := cut (next (· = q)) (skip s)
        if b = [] then none else tok [q] s
      else none

/-- ASCII_HEX_DIGIT. -/
def hex (c : Char) : Bool := c.isDigit || ('a' ≤ c && c ≤ 'f') || ('A' ≤ c && c ≤ 'F')

/-- `p ~ p ~ …`, `n` times, after something else. -/
def chars (p : Char → Bool) : Nat → Text → Option Text
  | 0, s => some s
  | n + 1, s =>
      match skip s with
      | [] => none
      | c :: s => if p c then chars p n s else none

/-- `p+`, after something else. -/
def chars1 (p : Char → Bool) (s : Text) : Option Text :=
  let (a, r) := cut (fun s => !next p s) (skip s)
  if a = [] then none else some r

/-- css.pest:286-289: `(ASCII_DIGIT ~ unit ~ comma){n}`. -/
def digitComma (unit : Text) : Nat → Text → Option Text
  | 0, s => some s
  | n + 1, s => (chars Char.isDigit 1 s).bind fun s => (tok unit s).bind fun s => (tok [','] s).bind (digitComma unit n)

/-- css.pest:291, 328. -/
def transparency (s : Text) : Option Text :=
  ((tok "0.".toList s).bind (chars1 Char.isDigit)).or (tok "1.0".toList s)

/-- css.pest:283-289: the rest of the input. -/
def color (s : Text) : Option Text :=
  ((lit ['#'] s).bind (chars hex 8)).or <|
  ((lit ['#'] s).bind (chars hex 6)).or <|
  ((lit "rgb(".toList s).bind fun s => (digitComma [] 3 s).bind fun s => (transparency s).bind (tok [')'])).or <|
  ((lit "rgb(".toList s).bind fun s => (digitComma [] 2 s).bind fun s => (chars Char.isDigit 1 s).bind (tok [')'])).or <|
  ((lit "hsl(".toList s).bind fun s => (digitComma [] 1 s).bind fun s => (digitComma ['%'] 2 s).bind fun s =>
    (transparency s).bind (tok [')'])).or <|
  ((lit "hsl(".toList s).bind fun s => (digitComma [] 1 s).bind fun s => (digitComma ['%'] 1 s).bind fun s =>
    (chars Char.isDigit 1 s).bind fun s => (tok ['%'] s).bind (tok [')']))

/-- The parts of a value: text, an expression, and an url that is an expression. -/
inductive Val where
  | text (t : Text)
  | expr (e : Text)
  | url (e : Text)
  deriving DecidableEq

/-- css.pest:293. -/
def url (s : Text) : Option (Val × Text) :=
  match lit "url(".toList s with
  | none => none
  | some r =>
      match expression (skip r) with
      | some (e, r) => (tok [')'] r).map fun r => (.url e, r)
      | none => (quoted (skip r)).bind fun r => (tok [')'] r).map fun r => (.text (span s r), r)

/-- css.pest:278, 280. The unquoted text is everything up to the semicolon. -/
def simple (s : Text) : Option (Val × Text) :=
  match expression s with
  | some (e, r) => some (.expr e, r)
  | none =>
      match color s with
      | some r => some (.text (span s r), r)
      | none =>
          let (a, r) := cut (next (· = ';')) s
          if a ≠ [] then some (.text a, r)
          else (quoted s).map fun r => (.text (span s r), r)

/-- css.pest:277. -/
def value (s : Text) : Option (List Val × Text) :=
  match url s with
  | some (v, r) => some ([v], r)
  | none =>
      let (vs, r) := more simple s.length s
      if vs = [] then none else some (vs, r)

structure Decl where
  ident : Text
  vals : List Val
  deriving DecidableEq

def lowerDash (c : Char) : Bool := ('a' ≤ c && c ≤ 'z') || c = '-'

/-- css.pest:276. -/
def ruleIdent : Text → Option (Text × Text)
  | [] => none
  | c :: s =>
      if lowerDash c || c = '@' then (chars1 lowerDash s).map fun r => (span (c :: s) r, r)
      else none

/-- css.pest:271-274. -/
def decl (s : Text) : Option (Decl × Text) :=
  if (lit "animation".toList s).isSome then none
  else
    match ruleIdent s with
    | none => none
    | some (ident, s) =>
        match colon (skip s) with
        | none => none
        | some s =>
            match value (skip s) with
            | none => none
            | some (vals, s) => (tok [';'] s).map fun s => (⟨ident, vals⟩, s)

/-- css.pest:370-372. -/
def frame (s : Text) : Option ((Text × List Decl) × Text) :=
  match (chars1 Char.isDigit s).bind (tok ['%']) with
  | none => none
  | some r =>
      match tok ['{'] r with
      | none => none
      | some t =>
          let (rules, t) := more decl t.length t
          if rules = [] then none
          else (tok ['}'] t).map fun t => ((span s r, rules), t)

/-- css.pest:369. -/
def frames (s : Text) : Option (List (Text × List Decl) × Text) :=
  match lit ['{'] s with
  | none => none
  | some s =>
      let (fs, s) := more frame s.length s
      if fs = [] then none else (tok ['}'] s).map fun s => (fs, s)

inductive Sel where
  | pseudo (t : Text)
  | ref (t : Text)
  deriving DecidableEq

inductive Rule where
  | decl (d : Decl)
  | animation (params : Text) (frames : Option (List (Text × List Decl)))
  | media (query : Text) (rules : List Rule)
  | sub (sels : List Sel) (rules : List Rule)

/-- css.pest:332-342, 367. -/
def animation (s : Text) : Option (Rule × Text) :=
  match (lit "animation".toList s).bind fun s => colon (skip s) with
  | none => none
  | some s =>
      let (params, s) := cut (next fun c => c = '{' || c = ';') (skip s)
      match frames (skip s) with
      | some (fs, s) => (tok [';'] s).map fun s => (.animation params (some fs), s)
      | none => (tok [';'] s).map fun s => (.animation params none, s)

/-- css.pest:9. -/
def comment (s : Text) : Option Text :=
  (lit "/*".toList s).bind fun s => tok "*/".toList (cut (fun s => (lit "*/".toList s).isSome) (skip s)).2

/-- css.pest:12: `(!(colon | bracket_left | brace_left) ~ (double_colon | ANY))*`. -/
def selCut : Text → Text × Text
  | [] => ([], [])
  | c :: s =>
      if ws c then
        let (a, b) := selCut s
        if a = [] then ([], c :: s) else (c :: a, b)
      else if c = '[' ∨ c = '{' then ([], c :: s)
      else if c = ':' then
        if colonNext s then
          match s with
          | [] => ([':'], [])
          | d :: s' =>
              if d = ':' then
                let (a, b) := selCut s'
                (':' :: ':' :: a, b)
              else
                let (a, b) := selCut (d :: s')
                (':' :: a, b)
        else ([], c :: s)
      else
        let (a, b) := selCut s
        (c :: a, b)

/-- css.pest:12. -/
def subSelector (s : Text) : Option (Sel × Text) :=
  match colon s with
  | none => none
  | some r =>
      let (a, r) := selCut (skip r)
      if a = [] then none else some (.pseudo (span s r), r)

/-- css.pest:13. -/
def subSelectorRef (s : Text) : Option (Sel × Text) :=
  match lit ['['] s with
  | none => none
  | some r =>
      let (a, r) := cut (fun s => (colon s).isSome || next (fun c => c = '[' || c = '{') s) (skip r)
      if a = [] then none else some (.ref (span s r), r)

/-- css.pest:11. -/
def selectors (s : Text) : List Sel × Text :=
  match (subSelector s).or (subSelectorRef s) with
  | none => more subSelectorRef s.length s
  | some (sel, r) =>
      let (refs, r) := more subSelectorRef r.length r
      (sel :: refs, r)

/-- css.pest:7-15: `rule`, with the rules inside of brackets read by `rule n`. A comment gives nothing.
`n` is how deep rules can be (the length of the input, below). -/
def rule : Nat → Text → Option (Option Rule × Text)
  | 0, _ => none
  | n + 1, s =>
      match comment s with
      | some r => some (none, r)
      | none =>
      match animation s with
      | some (a, r) => some (some a, r)
      | none =>
      -- media_rules, css.pest:344-350
      match (match lit "@media".toList s with
        | none => none
        | some r =>
            let (query, r) := cut (next (· = '{')) (skip r)
            match tok ['{'] r with
            | none => none
            | some r =>
                let (rules, r) := more (rule n) r.length r
                ((tok ['}'] r).bind (tok [';'])).map fun r => (Rule.media query (rules.filterMap id), r)) with
      | some (m, r) => some (some m, r)
      | none =>
      match decl s with
      | some (d, r) => some (some (.decl d), r)
      | none =>
      -- sub_rule, css.pest:11
      let (sels, r) := selectors s
      match tok ['{'] r with
      | none => none
      | some r =>
          let (rules, r) := more (rule n) r.length r
          if rules = [] then none
          else
            match tok ['}'] r with
            | none => none
            | some r => some (some (.sub sels (rules.filterMap id)), (tok [';'] r).getD (skip r))

/-- css.pest:5. -/
def parse (s : Text) : Option (List Rule) :=
  let (rules, r) := more (rule (s.length + 1)) s.length s
  if skip r = [] then some (rules.filterMap id) else none

/-! ## Model: css_parser.rs -/

/-- `slice::join`. -/
def join (sep : Text) (ts : List Text) : Text := sep.intercalate ts

/-- `str::replace`: from left to right; `n` characters are part of the last match. -/
def replaceFrom (p r : Text) : Nat → Text → Text
  | _, [] => []
  | n + 1, _ :: s => replaceFrom p r n s
  | 0, c :: s =>
      if p.isPrefixOf (c :: s) then r ++ replaceFrom p r (p.length - 1) s
      else c :: replaceFrom p r 0 s

def replaceAll (p r s : Text) : Text := replaceFrom p r 0 s

/-- css_parser.rs:263-275: the names of the parameters: `aa`, `ab`, ... -/
def key (i : Nat) : Text := [Char.ofNat (97 + i / 26), Char.ofNat (97 + i % 26)]

/-- The parameters (an expression and its name; the map is kept as a list) and the references. -/
structure St where
  params : List (Text × Text)
  refs : List Text

/-- css_parser.rs:278-288; `none` when all names are used (`seq.next().unwrap()`). -/
def insert (e : Text) (st : St) : Option (Text × St) :=
  match st.params.lookup e with
  | some k => some ('{' :: k ++ ['}'], st)
  | none =>
      if st.params.length < 26 * 26 then
        let k := key st.params.length
        some ('{' :: k ++ ['}'], { st with params := st.params ++ [(e, k)] })
      else none

/-- css_parser.rs:116-146. -/
def genVal (v : Val) (st : St) : Option (Text × St) :=
  match v with
  | .text t => some (t, st)
  | .expr e => insert e st
  | .url e => (insert e st).map fun (k, st) => ("url('".toList ++ k ++ "')".toList, st)

/-- A loop over a list that may change the state. -/
def each (f : α → St → Option (β × St)) : List α → St → Option (List β × St)
  | [], st => some ([], st)
  | a :: as, st =>
      match f a st with
      | none => none
      | some (b, st) =>
          match each f as st with
          | none => none
          | some (bs, st) => some (b :: bs, st)

/-- css_parser.rs:108-154. -/
def genDecl (d : Decl) (st : St) : Option (Text × St) :=
  (each genVal d.vals st).map fun (vs, st) =>
    (d.ident ++ ": ".toList ++ replaceAll "} px".toList "}px".toList (join [' '] vs) ++ [';'], st)

/-- css_parser.rs:167-178. -/
def genFrame (f : Text × List Decl) (st : St) : Option (Text × St) :=
  (each genDecl f.2 st).map fun (rules, st) => (f.1 ++ " {{ ".toList ++ join ['\n'] rules ++ " }}".toList, st)

/-- css_parser.rs:156-196. -/
def genAnimation (params : Text) (frames : Option (List (Text × List Decl))) (st : St) : Option (Text × St) :=
  match frames with
  | none => some ("animation: ".toList ++ params ++ [';'], st)
  | some fs =>
      (each genFrame fs st).map fun (fs, st) =>
        ("animation: ".toList ++ join [' '] [params, "{{ ".toList ++ join ['\n'] fs ++ " }}".toList] ++ [';'], st)

def bracket (c : Char) : Bool := c = '[' || c = ']'

/-- css_parser.rs:237: `trim_matches`. -/
def refName (t : Text) : Text := ((t.dropWhile bracket).reverse.dropWhile bracket).reverse

/-- css_parser.rs:231-241: the text of a selector, and the reference. -/
def genSel (s : Sel) (st : St) : Text × St :=
  match s with
  | .pseudo t => (t, st)
  | .ref t => (t, { st with refs := st.refs ++ [refName t] })

def genSels : List Sel → St → List Text × St
  | [], st => ([], st)
  | s :: ss, st =>
      let (t, st) := genSel s st
      let (ts, st) := genSels ss st
      (t :: ts, st)

mutual
/-- css_parser.rs:84-106, 198-255. -/
def genRule : Rule → St → Option (Text × St)
  | .decl d, st => genDecl d st
  | .animation params frames, st => genAnimation params frames st
  | .media query rules, st =>
      (genRules rules st).map fun (ts, st) =>
        ("@media ".toList ++ query ++ " {{ ".toList ++ join [' '] ts ++ " }};".toList, st)
  | .sub sels rules, st =>
      let (ss, st) := genSels sels st
      (genRules rules st).map fun (ts, st) =>
        (if ss = [] then [] else join [' '] ss ++ " {{ ".toList ++ join ['\n'] ts ++ " }};".toList, st)
/-- The loops over rules. -/
def genRules : List Rule → St → Option (List Text × St)
  | [], st => some ([], st)
  | r :: rs, st =>
      match genRule r st with
      | none => none
      | some (t, st) =>
          match genRules rs st with
          | none => none
          | some (ts, st) => some (t :: ts, st)
end

/-! ## What the generated expression is -/

/-- `format!`: `{{` and `}}` are brackets, `{name}` is an argument, `none` is an error at compile time. `arg` is what has been
read of the name of an argument. (Format specifications are not modelled: they are part of the name.) -/
def fmt (look : Text → Option Text) : Option Text → Text → Option Text
  | none, [] => some []
  | some _, [] => none
  | none, c :: s =>
      if c = '{' then
        match s with
        | [] => none
        | d :: s' =>
            if d = '{' then (fmt look none s').map ('{' :: ·)
            else fmt look (some []) (d :: s')
      else if c = '}' then
        match s with
        | [] => none
        | d :: s' => if d = '}' then (fmt look none s').map ('}' :: ·) else none
      else (fmt look none s).map (c :: ·)
  | some name, c :: s =>
      if c = '}' then
        match look name with
        | none => none
        | some v => (fmt look none s).map (v ++ ·)
      else if c = '{' then none
      else fmt look (some (name ++ [c])) s

/-- The name of a variable. -/
def isIdent : Text → Bool
  | [] => false
  | c :: s => (c.isAlpha || c = '_') && s.all fun c => c.isAlphanum || c = '_'

/-- What a name in the format string stands for: a named argument (css_parser.rs:47-69), or else a variable. `eval` gives the
value of an expression, as text. -/
def argument (eval : Text → Text) (params : List (Text × Text)) (name : Text) : Option Text :=
  match params.find? (·.2 = name) with
  | some (e, _) => some (eval e)
  | none => if isIdent name then some (eval name) else none

/-- css_parser.rs:304-317: the references are replaced one after another. -/
def replaceRefs (cls : Text → Text) : List Text → Text → Text
  | [], out => out
  | r :: rs, out => replaceRefs cls rs (replaceAll ('[' :: r ++ [']']) ('.' :: cls r) out)

/-- css_parser.rs:29-82, 299-320 and lib.rs:53-77: the text given to `Css::str` (`false`) or `Css::string` (`true`).
`eval` gives the value of an expression (`syn::parse_str` is taken to accept it), `cls` the class of the `Css` in a variable. -/
def css (eval cls : Text → Text) (input : Text) : Option (Bool × Text) :=
  match parse input with
  | none => none
  | some rules =>
      match genRules rules ⟨[], []⟩ with
      | none => none
      | some (children, st) =>
          let out := join ['\n'] children
          let out :=
            if st.params = [] then some (replaceAll "}}".toList "}".toList (replaceAll "{{".toList "{".toList out))
            else fmt (argument eval st.params) none out
          out.map fun out => (!st.params.isEmpty || !st.refs.isEmpty, replaceRefs cls st.refs out)

end Verif.Css.Macro

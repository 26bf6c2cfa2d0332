import Verif.Css.Transform
/-!
# C60: what is written in css!, and what it means

A block is written from declarations, selectors, animations and media queries, with any white space between its parts and with comments.
`written` is the text in the program, `out` is the css: the same block without comments and extra white space, with the values of the
expressions in the place of the expressions. (The specification does not use the model of the macro.)
-/
namespace Verif.Css.Macro

/-- White space. -/
def Space (c : Char) : Prop := c = ' ' ∨ c = '\t' ∨ c = '\r' ∨ c = '\n'

instance : DecidablePred Space := fun c => by unfold Space; infer_instance

def Blank (w : Text) : Prop := ∀ c ∈ w, Space c

/-- Some text, with no white space at its ends. -/
structure Solid (t : Text) : Prop where
  some : t ≠ []
  first : ∀ c ∈ t.head?, ¬ Space c
  last : ∀ c ∈ t.getLast?, ¬ Space c

/-- Something written, with the white space after it. -/
abbrev Spaced (α : Type) := α × Text

def Spaced.all (f : α → Text) (l : List (Spaced α)) : Text := (l.map fun (a, w) => f a ++ w).flatten

/-! ## Values -/

/-- The parts, with any white space before each of them. -/
def Loose : List Text → Text → Prop
  | [], t => t = []
  | p :: ps, t => ∃ w r, Blank w ∧ t = w ++ (p ++ r) ∧ Loose ps r

/-- `0.` and digits, or `1.0`. -/
def Fraction (ps : List Text) : Prop :=
  ps = ["1.0".toList] ∨ ∃ ds : Text, ds ≠ [] ∧ (∀ c ∈ ds, c.isDigit = true) ∧ ps = "0.".toList :: ds.map fun c => [c]

/-- A color of numbers with one digit, with white space anywhere: `rgb(0, 0, 0)`. -/
inductive SmallColor : Text → Prop where
  | rgb {a b c : Char} {r : Text} (ha : a.isDigit = true) (hb : b.isDigit = true) (hc : c.isDigit = true)
      (h : Loose [[a], [','], [b], [','], [c], [')']] r) : SmallColor ("rgb(".toList ++ r)
  | rgba {a b c : Char} {f : List Text} {r : Text} (ha : a.isDigit = true) (hb : b.isDigit = true) (hc : c.isDigit = true) (hf : Fraction f)
      (h : Loose ([[a], [','], [b], [','], [c], [',']] ++ f ++ [[')']]) r) : SmallColor ("rgb(".toList ++ r)
  | hsl {a b c : Char} {r : Text} (ha : a.isDigit = true) (hb : b.isDigit = true) (hc : c.isDigit = true)
      (h : Loose [[a], [','], [b], ['%'], [','], [c], ['%'], [')']] r) : SmallColor ("hsl(".toList ++ r)
  | hsla {a b c : Char} {f : List Text} {r : Text} (ha : a.isDigit = true) (hb : b.isDigit = true) (hc : c.isDigit = true) (hf : Fraction f)
      (h : Loose ([[a], [','], [b], ['%'], [','], [c], ['%'], [',']] ++ f ++ [[')']]) r) : SmallColor ("hsl(".toList ++ r)

/-- What a value can begin with: an expression in brackets, or a color. -/
inductive Head where
  | expr (before e after : Text)
  | color (digits : Text)
  | small (t : Text)
  deriving DecidableEq

inductive Value where
  /-- Expressions and colors, and then any text. -/
  | words (heads : List (Spaced Head)) (t : Text)
  /-- `url({e})` -/
  | url (w before e after w' : Text)
  /-- `url('…')` -/
  | quoted (w : Text) (q : Char) (s w' : Text)

def Head.written : Head → Text
  | .expr before e after => '{' :: before ++ e ++ after ++ ['}']
  | .color digits => '#' :: digits
  | .small t => t

def Value.written : Value → Text
  | .words heads t => Spaced.all Head.written heads ++ t
  | .url w before e after w' => "url(".toList ++ w ++ ('{' :: before ++ e ++ after ++ ['}']) ++ w' ++ [')']
  | .quoted w q s w' => "url(".toList ++ w ++ (q :: s ++ [q]) ++ w' ++ [')']

def Head.value (eval : Text → Text) : Head → Text
  | .expr _ e _ => eval e
  | .color digits => '#' :: digits
  | .small t => t

/-- White space between two parts of a value is one space. -/
def wordsValue (eval : Text → Text) (t : Text) : List (Spaced Head) → Text
  | [] => t
  | (h, w) :: heads => h.value eval ++ (if (heads = [] ∧ t = []) ∨ w = [] then [] else [' ']) ++ wordsValue eval t heads

def Value.value (eval : Text → Text) : Value → Text
  | .words heads t => wordsValue eval t heads
  | .url _ _ e _ _ => "url('".toList ++ eval e ++ "')".toList
  | v@(.quoted ..) => v.written

def HexDigit (c : Char) : Prop := ('0' ≤ c ∧ c ≤ '9') ∨ ('a' ≤ c ∧ c ≤ 'f') ∨ ('A' ≤ c ∧ c ≤ 'F')

instance : DecidablePred HexDigit := fun c => by unfold HexDigit; infer_instance

/-- The text of an expression ends at the first bracket. -/
def ExprOk (before e after : Text) : Prop := Blank before ∧ Solid e ∧ '}' ∉ e ∧ Blank after

def Head.Ok : Head → Prop
  | .expr before e after => ExprOk before e after
  | .color digits => (digits.length = 6 ∨ digits.length = 8) ∧ ∀ c ∈ digits, HexDigit c
  | .small t => SmallColor t

/-- The text of a value: no brackets and no semicolon (see the violations). It does not begin as a color does, unless it cannot be one. -/
structure TextOk (t : Text) : Prop where
  solid : Solid t
  plain : Plain t
  noColon : t.head? ≠ some ':'
  noUrl : ¬ "url(".toList <+: t
  noHex : ∀ r, t = '#' :: r → r.length < 6 ∨ ∃ c ∈ r.take 6, ¬ HexDigit c ∧ ¬ Space c
  noRgb : ∀ c, SmallColor c → ¬ c <+: t

/-- What can follow a head: another one after white space, or text. Text follows an expression at once if it begins with `px`, and only
then (see the violations). -/
def HeadsOk : List (Spaced Head) → Text → Prop
  | [], _ => True
  | [(h, w)], t => h.Ok ∧ Blank w ∧ (t ≠ [] →
      match h with
      | .expr .. => w = [] ↔ "px".toList <+: t
      | .color digits => w ≠ [] ∧ (digits.length = 6 → ∀ c r, t = c :: r → HexDigit c → ∃ d r', r = d :: r' ∧ ¬ HexDigit d ∧ ¬ Space d)
      | .small _ => w ≠ [])
  | (h, w) :: heads, t => h.Ok ∧ Blank w ∧ w ≠ [] ∧ HeadsOk heads t

def Value.Ok : Value → Prop
  | .words heads t => HeadsOk heads t ∧ (heads = [] ∨ t ≠ [] → TextOk t)
  | .url w before e after w' => Blank w ∧ ExprOk before e after ∧ Blank w'
  | .quoted w q s w' => Blank w ∧ (q = '\'' ∨ q = '"') ∧ Solid s ∧ Plain s ∧ q ∉ s ∧ Blank w'

def Head.exprs : Head → List Text
  | .expr _ e _ => [e]
  | .color _ => []
  | .small _ => []

/-- The expressions of a value. -/
def Value.exprs : Value → List Text
  | .words heads _ => heads.flatMap fun (h, _) => h.exprs
  | .url _ _ e _ _ => [e]
  | .quoted .. => []

/-! ## Declarations -/

/-- `name : value ;` -/
structure Declaration where
  name : Text
  w1 : Text
  w2 : Text
  value : Value
  w3 : Text

def Declaration.written (d : Declaration) : Text := d.name ++ d.w1 ++ ':' :: d.w2 ++ d.value.written ++ d.w3 ++ [';']

def Declaration.out (eval : Text → Text) (d : Declaration) : Text := d.name ++ ": ".toList ++ d.value.value eval ++ [';']

/-- Small letters and dashes; not `animation`. -/
structure Declaration.Ok (d : Declaration) : Prop where
  name : ∀ c ∈ d.name, ('a' ≤ c ∧ c ≤ 'z') ∨ c = '-'
  two : 2 ≤ d.name.length
  noAnimation : ¬ "animation".toList <+: d.name
  w1 : Blank d.w1
  w2 : Blank d.w2
  value : d.value.Ok
  w3 : Blank d.w3

/-! ## Lists of rules -/

/-- A comment, or something else. -/
inductive Line (α : Type) where
  | comment (body : Text)
  | item (a : α)

/-- What is in brackets: white space, and lines with white space after them. -/
structure Body (α : Type) where
  lead : Text
  lines : List (Spaced (Line α))

def Line.written (f : α → Text) : Line α → Text
  | .comment body => "/*".toList ++ body ++ "*/".toList
  | .item a => f a

def Body.written (f : α → Text) (b : Body α) : Text := b.lead ++ Spaced.all (Line.written f) b.lines

def Line.items : Line α → List α
  | .comment _ => []
  | .item a => [a]

/-- Without comments. -/
def Body.items (b : Body α) : List α := b.lines.flatMap fun (l, _) => l.items

def Line.Ok (ok : α → Prop) : Line α → Prop
  | .comment body => ¬ "*/".toList <:+: body
  | .item a => ok a

structure Body.Ok (ok : α → Prop) (b : Body α) : Prop where
  lead : Blank b.lead
  lines : ∀ l ∈ b.lines, l.1.Ok ok ∧ Blank l.2

/-! ## Selectors -/

/-- A pseudo selector: `:a::b::c`. -/
structure Pseudo where
  first : Text
  more : List Text

def Pseudo.written (p : Pseudo) : Text := ':' :: p.first ++ (p.more.map fun t => "::".toList ++ t).flatten

def PseudoPart (t : Text) : Prop := Solid t ∧ Plain t ∧ ':' ∉ t ∧ '[' ∉ t

structure Pseudo.Ok (p : Pseudo) : Prop where
  first : PseudoPart p.first
  more : ∀ t ∈ p.more, PseudoPart t

/-- The name of a variable with a `Css`. -/
def RefOk (name : Text) : Prop := name ≠ [] ∧ ∀ c ∈ name, c.isAlphanum = true ∨ c = '_'

inductive Selector where
  | pseudo (p : Pseudo)
  | ref (name : Text)

def Selector.written : Selector → Text
  | .pseudo p => p.written
  | .ref name => '[' :: name ++ [']']

/-- `ref` is how a reference is written. -/
def Selector.out (ref : Text → Text) : Selector → Text
  | .pseudo p => p.written
  | .ref name => ref name

def Selector.Ok : Selector → Prop
  | .pseudo p => p.Ok
  | .ref name => RefOk name

/-- `selector [ref] [ref] { declarations }`, with or without a semicolon. The references have white space before them. -/
structure Sub where
  first : Selector
  refs : List (Text × Text)
  w : Text
  body : Body Declaration
  semicolon : Option Text

def Sub.written (s : Sub) : Text :=
  s.first.written ++ (s.refs.map fun (w, name) => w ++ '[' :: name ++ [']']).flatten ++ s.w ++
    '{' :: s.body.written Declaration.written ++ '}' :: (match s.semicolon with | none => [] | some w => w ++ [';'])

def Sub.selector (ref : Text → Text) (s : Sub) : Text :=
  s.first.out ref ++ (s.refs.map fun (_, name) => ' ' :: ref name).flatten

def Sub.rules (eval : Text → Text) (s : Sub) : Text := ['\n'].intercalate (s.body.items.map (Declaration.out eval))

def Sub.out (eval ref : Text → Text) (s : Sub) : Text := s.selector ref ++ " { ".toList ++ s.rules eval ++ " };".toList

structure Sub.Ok (s : Sub) : Prop where
  first : s.first.Ok
  refs : ∀ r ∈ s.refs, Blank r.1 ∧ r.1 ≠ [] ∧ RefOk r.2
  w : Blank s.w
  body : s.body.Ok Declaration.Ok
  some : s.body.lines ≠ []
  semicolon : ∀ w ∈ s.semicolon, Blank w

def Sub.exprs (s : Sub) : List Text := s.body.items.flatMap fun d => d.value.exprs

def Selector.names : Selector → List Text
  | .pseudo _ => []
  | .ref name => [name]

def Sub.names (s : Sub) : List Text := s.first.names ++ s.refs.map (·.2)

/-! ## Animations -/

/-- `10 % { declarations }` -/
structure Frame where
  step : Text
  w : Text
  lead : Text
  decls : List (Spaced Declaration)

def Frame.written (f : Frame) : Text :=
  f.step ++ '%' :: f.w ++ '{' :: f.lead ++ Spaced.all Declaration.written f.decls ++ ['}']

def Frame.out (eval : Text → Text) (f : Frame) : Text :=
  f.step ++ "% { ".toList ++ ['\n'].intercalate (f.decls.map fun (d, _) => d.out eval) ++ " }".toList

structure Frame.Ok (f : Frame) : Prop where
  step : f.step ≠ [] ∧ ∀ c ∈ f.step, c.isDigit = true
  w : Blank f.w
  lead : Blank f.lead
  some : f.decls ≠ []
  decls : ∀ d ∈ f.decls, d.1.Ok ∧ Blank d.2

/-- `animation : params { frames } ;` -/
structure Animation where
  w1 : Text
  w2 : Text
  params : Text
  w3 : Text
  frames : Option (Text × List (Spaced Frame))
  w4 : Text

def framesWritten : Option (Text × List (Spaced Frame)) → Text
  | none => []
  | some (lead, fs) => '{' :: lead ++ Spaced.all Frame.written fs ++ ['}']

def Animation.written (a : Animation) : Text :=
  "animation".toList ++ a.w1 ++ ':' :: a.w2 ++ a.params ++ a.w3 ++ framesWritten a.frames ++ a.w4 ++ [';']

def framesOut (eval : Text → Text) (fs : List (Spaced Frame)) : Text :=
  ['\n'].intercalate (fs.map fun (f, _) => f.out eval)

def Animation.out (eval : Text → Text) (a : Animation) : Text :=
  "animation: ".toList ++ a.params ++
    (match a.frames with | none => [] | some (_, fs) => " { ".toList ++ framesOut eval fs ++ " }".toList) ++ [';']

structure Animation.Ok (a : Animation) : Prop where
  w1 : Blank a.w1
  w2 : Blank a.w2
  params : Solid a.params ∧ Plain a.params ∧ a.params.head? ≠ some ':'
  w3 : Blank a.w3
  frames : ∀ f ∈ a.frames, Blank f.1 ∧ f.2 ≠ [] ∧ ∀ g ∈ f.2, g.1.Ok ∧ Blank g.2
  w4 : Blank a.w4

def Animation.exprs (a : Animation) : List Text :=
  match a.frames with
  | none => []
  | some (_, fs) => fs.flatMap fun (f, _) => f.decls.flatMap fun (d, _) => d.value.exprs

/-! ## Media queries -/

/-- What can be in a media query. -/
inductive Entry where
  | decl (d : Declaration)
  | sub (s : Sub)

def Entry.written : Entry → Text
  | .decl d => d.written
  | .sub s => s.written

def Entry.out (eval ref : Text → Text) : Entry → Text
  | .decl d => d.out eval
  | .sub s => s.out eval ref

def Entry.Ok : Entry → Prop
  | .decl d => d.Ok
  | .sub s => s.Ok

def Entry.exprs : Entry → List Text
  | .decl d => d.value.exprs
  | .sub s => s.exprs

def Entry.names : Entry → List Text
  | .decl _ => []
  | .sub s => s.names

/-- `@media query { entries } ;` -/
structure Media where
  w1 : Text
  query : Text
  w2 : Text
  body : Body Entry
  w3 : Text

def Media.written (m : Media) : Text :=
  "@media".toList ++ m.w1 ++ m.query ++ m.w2 ++ '{' :: m.body.written Entry.written ++ '}' :: m.w3 ++ [';']

def Media.out (eval ref : Text → Text) (m : Media) : Text :=
  "@media ".toList ++ m.query ++ " { ".toList ++ [' '].intercalate (m.body.items.map (Entry.out eval ref)) ++ " };".toList

structure Media.Ok (m : Media) : Prop where
  w1 : Blank m.w1
  query : Solid m.query ∧ Plain m.query
  w2 : Blank m.w2
  body : m.body.Ok Entry.Ok
  w3 : Blank m.w3

/-! ## Blocks -/

inductive Part where
  | entry (e : Entry)
  | animation (a : Animation)
  | media (m : Media)

def Part.written : Part → Text
  | .entry e => e.written
  | .animation a => a.written
  | .media m => m.written

def Part.out (eval ref : Text → Text) : Part → Text
  | .entry e => e.out eval ref
  | .animation a => a.out eval
  | .media m => m.out eval ref

def Part.Ok : Part → Prop
  | .entry e => e.Ok
  | .animation a => a.Ok
  | .media m => m.Ok

def Part.exprs : Part → List Text
  | .entry e => e.exprs
  | .animation a => a.exprs
  | .media m => m.body.items.flatMap Entry.exprs

def Part.names : Part → List Text
  | .entry e => e.names
  | .animation _ => []
  | .media m => m.body.items.flatMap Entry.names

/-- What is written in css!. -/
abbrev Block := Body Part

/-- The text in the program. -/
def Block.text (b : Block) : Text := b.written Part.written

/-- The css. -/
def Block.out (eval ref : Text → Text) (b : Block) : Text := ['\n'].intercalate (b.items.map (Part.out eval ref))

/-- The expressions, and the variables that are referenced. -/
def Block.exprs (b : Block) : List Text := b.items.flatMap Part.exprs
def Block.names (b : Block) : List Text := b.items.flatMap Part.names

end Verif.Css.Macro

import Verif.Dom.ServerProps
/-!
# C29: the text of the page, and an HTML tokenizer

Source: `crates/vertigo-cli/src/serve/html/html_element.rs`.

Texts are lists of characters here.  The crate `html_escape` is not part of the repository: its
two functions are parameters (`Escape`), with the documented contract.
-/
namespace Verif.Ssr

open Verif.Dom (HtmlNode OrderedMap)

/-! ## The renderer -/

/-- `html_escape::encode_safe` and `html_escape::encode_quoted_attribute`, for one character. -/
structure Escape where
  safe : Char → List Char
  attr : Char → List Char

/-- `encode_safe(s)`. -/
def Escape.encodeSafe (e : Escape) (s : String) : List Char := s.toList.flatMap e.safe

/-- `encode_quoted_attribute(s)`. -/
def Escape.encodeAttribute (e : Escape) (s : String) : List Char := s.toList.flatMap e.attr

/-- html_element.rs:6-32. -/
abbrev Ident := Option Nat

/-- html_element.rs:20-25. -/
def Ident.get (i : Ident) : List Char := match i with | some n => List.replicate n ' ' | none => []

/-- html_element.rs:27-31. -/
def Ident.add (i : Ident) (up : Nat) : Ident := i.map (· + up)

/-- html_element.rs:59-69, the loop. -/
def attributesLoop (e : Escape) : List (String × String) → List Char
  | [] => []
  | (name, value) :: l =>
      [' '] ++ e.encodeSafe name ++ ['=', '"'] ++ e.encodeAttribute value ++ ['"'] ++ attributesLoop e l

/-- html_element.rs:59-69. `get_iter` of a map made by `set` does not panic
(`C30_iter_total`). -/
def attributesToString (e : Escape) (attr : OrderedMap) : List Char := attributesLoop e (attr.getIter.getD [])

/-- html_element.rs:130-137. -/
def isSelfClosing (name : String) : Bool :=
  name ∈ ["area", "base", "br", "col", "embed", "hr", "img", "input", "link", "meta", "param", "source", "track", "wbr"]

/-- The lower case of an ASCII letter. -/
def lower (c : Char) : Char := if 'A' ≤ c ∧ c ≤ 'Z' then Char.ofNat (c.toNat + 32) else c

/-- html_element.rs:172: `["script", "style"].contains(&element.name.to_lowercase())`. No other
characters than ASCII letters have lower cases spelling these two words. -/
def isRaw (name : String) : Bool :=
  name.toList.map lower = "script".toList || name.toList.map lower = "style".toList

/-- The result of html_element.rs:90-128, before `pop`: texts, and elements (here already
rendered: rendering has no effects, so it does not matter that Rust does it later). -/
inductive Item where
  | text (s : List Char)
  | element (lines : List (List Char))

/-- html_element.rs:85-88 and 101-103, 112-114. -/
def flush : Option (List String) → List Item
  | some ts => [.text (ts.flatMap String.toList)]
  | none => []

/-- html_element.rs:76-83. -/
def lastTextAdd : Option (List String) → String → Option (List String)
  | some ts, t => some (ts ++ [t])
  | none, t => some [t]

/-- html_element.rs:155-171, the lines of a child. -/
def itemLines (e : Escape) (ident : Ident) : Item → List (List Char)
  | .text s => [ident.get ++ s.flatMap e.safe]
  | .element lines => lines

mutual
/-- html_element.rs:139-206, the lines pushed for a node. -/
def nodeLines (e : Escape) (ident : Ident) : HtmlNode → List (List Char)
  | .element name attr children =>
      let elName := e.encodeSafe name
      let attrs := attributesToString e attr
      if isSelfClosing name then [ident.get ++ ['<'] ++ elName ++ attrs ++ [' ', '/', '>']]
      else
        match items e (ident.add 2) none children with
        | [.text text] =>
            let escaped := if isRaw name then text else text.flatMap e.safe
            [ident.get ++ ['<'] ++ elName ++ attrs ++ ['>'] ++ escaped ++ ['<', '/'] ++ elName ++ ['>']]
        | l =>
            [ident.get ++ ['<'] ++ elName ++ attrs ++ ['>']] ++ l.flatMap (itemLines e (ident.add 2)) ++
              [ident.get ++ ['<', '/'] ++ elName ++ ['>']]
  | .text text => [ident.get ++ e.encodeSafe text]
  | .comment comment => [ident.get ++ ['<', '!', '-', '-'] ++ e.encodeSafe comment ++ ['-', '-', '>']]
/-- html_element.rs:90-128: `get_render_child_mode`. -/
def items (e : Escape) (ident : Ident) : Option (List String) → List HtmlNode → List Item
  | last, [] => flush last
  | last, .text t :: l => items e ident (lastTextAdd last t) l
  | last, .comment _ :: l => items e ident last l
  | last, .element n a c :: l => flush last ++ .element (nodeLines e ident (.element n a c)) :: items e ident none l
end

/-- `join`. -/
def joinLines (sep : List Char) : List (List Char) → List Char
  | [] => []
  | [l] => l
  | l :: ls => l ++ sep ++ joinLines sep ls

/-- html_element.rs:43-57: `convert_to_string`. -/
def convertToString (e : Escape) (format : Bool) (root : HtmlNode) : List Char :=
  let lines := "<!DOCTYPE html>".toList :: nodeLines e (if format then some 0 else none) root
  joinLines (if format then ['\n'] else []) lines

/-! ## Specification: an HTML tokenizer

WHATWG HTML, 13.2.5.  The states that are left out (unquoted values, character references
without semicolon, ...) are `stuck`.
-/

inductive Token where
  | doctype
  | startTag (name : List Char) (attrs : List (List Char × List Char)) (selfClosing : Bool)
  | endTag (name : List Char)
  | char (c : Char)
  deriving DecidableEq

/-- How text is read; chosen by the tree construction after a start tag. -/
inductive Mode where
  | data
  | rcdata (name : List Char)
  | rawtext (name : List Char)
  /-- the script data states -/
  | script
  deriving DecidableEq

structure Tag where
  isEnd : Bool
  name : List Char
  attrs : List (List Char × List Char)
  deriving DecidableEq

inductive Return where
  | text (m : Mode)
  | value (t : Tag) (name value : List Char)
  deriving DecidableEq

inductive State where
  | text (m : Mode)
  | charRef (r : Return) (buffer : List Char)
  | tagOpen
  | endTagOpen
  /-- `<` in a mode other than `data` -/
  | rawLess (m : Mode)
  /-- after `</` in a mode other than `data`: the letters so far -/
  | rawEnd (m : Mode) (buffer : List Char)
  | markup (buffer : List Char)
  | doctype
  | tagName (isEnd : Bool) (name : List Char)
  | beforeAttrName (t : Tag)
  | attrName (t : Tag) (name : List Char)
  | beforeAttrValue (t : Tag) (name : List Char)
  | attrValue (t : Tag) (name value : List Char)
  | afterAttrValue (t : Tag)
  | selfClosing (t : Tag)
  | stuck
  deriving DecidableEq

def isLetter (c : Char) : Bool := ('a' ≤ c ∧ c ≤ 'z') ∨ ('A' ≤ c ∧ c ≤ 'Z')
def isSpace (c : Char) : Bool := c = '\t' || c = '\n' || c.toNat = 12 || c = ' '
def isRefChar (c : Char) : Bool := isLetter c || c.isDigit || c = '#'

/-- The character references that occur. -/
def decodeRef (s : List Char) : Option Char :=
  if s = "amp".toList then some '&'
  else if s = "lt".toList then some '<'
  else if s = "gt".toList then some '>'
  else if s = "quot".toList then some '"'
  else if s = "#x27".toList then some '\''
  else if s = "#x2F".toList then some '/'
  else none

/-- 13.2.6: the mode after a start tag (with scripting). -/
def modeAfter (name : List Char) : State :=
  if name = "title".toList ∨ name = "textarea".toList then .text (.rcdata name)
  else if name ∈ ["style", "xmp", "iframe", "noembed", "noframes", "noscript"].map String.toList then .text (.rawtext name)
  else if name = "script".toList then .text .script
  else if name = "plaintext".toList then .stuck
  else .text .data

def Mode.endName : Mode → List Char
  | .data => []
  | .rcdata n => n
  | .rawtext n => n
  | .script => "script".toList

/-- Add an attribute; a duplicate is dropped. -/
def Tag.addAttr (t : Tag) (name value : List Char) : Tag :=
  if t.attrs.any (·.1 = name) then t else { t with attrs := t.attrs ++ [(name, value)] }

def emit (t : Tag) (selfClosing : Bool) : State × List Token :=
  if t.isEnd then (.text .data, [.endTag t.name])
  else (modeAfter t.name, [.startTag t.name t.attrs selfClosing])

def replacement : Char := Char.ofNat 0xFFFD

/-- Data, RCDATA, RAWTEXT and script data state. -/
def stepText (m : Mode) (c : Char) : State × List Token :=
  match m with
  | .data =>
      if c = '&' then (.charRef (.text .data) [], [])
      else if c = '<' then (.tagOpen, [])
      else (.text .data, [.char c])
  | .rcdata n =>
      if c = '&' then (.charRef (.text m) [], [])
      else if c = '<' then (.rawLess m, [])
      else if c = '\x00' then (.text (.rcdata n), [.char replacement])
      else (.text m, [.char c])
  | _ =>
      if c = '<' then (.rawLess m, [])
      else if c = '\x00' then (.text m, [.char replacement])
      else (.text m, [.char c])

/-- Before attribute name state. -/
def stepBeforeAttrName (t : Tag) (c : Char) : State × List Token :=
  if isSpace c then (.beforeAttrName t, [])
  else if c = '/' then (.selfClosing t, [])
  else if c = '>' then emit t false
  else if c = '=' then (.stuck, [])
  else (.attrName t [lower c], [])

/-- One character. -/
def step : State → Char → State × List Token
  | .text m, c => stepText m c
  | .charRef r buffer, c =>
      if c = ';' then
        match decodeRef buffer, r with
        | some x, .text m => (.text m, [.char x])
        | some x, .value t name value => (.attrValue t name (value ++ [x]), [])
        | none, _ => (.stuck, [])
      else if isRefChar c then (.charRef r (buffer ++ [c]), [])
      else (.stuck, [])
  | .tagOpen, c =>
      if c = '!' then (.markup [], [])
      else if c = '/' then (.endTagOpen, [])
      else if isLetter c then (.tagName false [lower c], [])
      else if c = '?' then (.stuck, [])
      else
        let (s, ts) := stepText .data c
        (s, .char '<' :: ts)
  | .endTagOpen, c => if isLetter c then (.tagName true [lower c], []) else (.stuck, [])
  | .rawLess m, c =>
      if c = '/' then (.rawEnd m [], [])
      else if c = '!' ∧ m = .script then (.stuck, [])
      else
        let (s, ts) := stepText m c
        (s, .char '<' :: ts)
  | .rawEnd m buffer, c =>
      let name := buffer.map lower
      if isLetter c then (.rawEnd m (buffer ++ [c]), [])
      else if name = m.endName ∧ isSpace c then (.beforeAttrName ⟨true, name, []⟩, [])
      else if name = m.endName ∧ c = '/' then (.selfClosing ⟨true, name, []⟩, [])
      else if name = m.endName ∧ c = '>' then (.text .data, [.endTag name])
      else
        let (s, ts) := stepText m c
        (s, (['<', '/'] ++ buffer).map .char ++ ts)
  | .markup buffer, c =>
      let buffer := buffer ++ [c]
      if buffer.map lower = "doctype".toList then (.doctype, [])
      else if buffer.map lower <+: "doctype".toList then (.markup buffer, [])
      else (.stuck, [])
  | .doctype, c => if c = '>' then (.text .data, [.doctype]) else (.doctype, [])
  | .tagName isEnd name, c =>
      if isSpace c then (.beforeAttrName ⟨isEnd, name, []⟩, [])
      else if c = '/' then (.selfClosing ⟨isEnd, name, []⟩, [])
      else if c = '>' then emit ⟨isEnd, name, []⟩ false
      else if c = '\x00' then (.tagName isEnd (name ++ [replacement]), [])
      else (.tagName isEnd (name ++ [lower c]), [])
  | .beforeAttrName t, c => stepBeforeAttrName t c
  | .attrName t name, c =>
      if isSpace c ∨ c = '/' ∨ c = '>' then (.stuck, [])
      else if c = '=' then (.beforeAttrValue t name, [])
      else if c = '\x00' then (.attrName t (name ++ [replacement]), [])
      else (.attrName t (name ++ [lower c]), [])
  | .beforeAttrValue t name, c => if c = '"' then (.attrValue t name [], []) else (.stuck, [])
  | .attrValue t name value, c =>
      if c = '"' then (.afterAttrValue (t.addAttr name value), [])
      else if c = '&' then (.charRef (.value t name value) [], [])
      else if c = '\x00' then (.attrValue t name (value ++ [replacement]), [])
      else (.attrValue t name (value ++ [c]), [])
  | .afterAttrValue t, c =>
      if isSpace c then (.beforeAttrName t, [])
      else if c = '/' then (.selfClosing t, [])
      else if c = '>' then emit t false
      else stepBeforeAttrName t c
  | .selfClosing t, c => if c = '>' then emit t true else stepBeforeAttrName t c
  | .stuck, _ => (.stuck, [])

def run : State → List Char → State × List Token
  | s, [] => (s, [])
  | s, c :: cs =>
      let (s, ts) := step s c
      let (s, us) := run s cs
      (s, ts ++ us)

/-- 13.2.3.5: newlines are normalised before the text is read. -/
def normalize : List Char → List Char
  | [] => []
  | ['\r'] => ['\n']
  | '\r' :: '\n' :: cs => '\n' :: normalize cs
  | '\r' :: c :: cs => '\n' :: normalize (c :: cs)
  | c :: cs => c :: normalize cs

/-- What a browser reads in a page; `none` if it ends inside a tag. -/
def tokenize (page : List Char) : Option (List Token) :=
  match run (.text .data) (normalize page) with
  | (.text .data, ts) => some ts
  | _ => none

/-! ## Specification: what should be read -/

/-- The documented behaviour of `html_escape`: `encode_safe` replaces six characters by
references and nothing else; `encode_quoted_attribute` replaces at least `&` and `"`. -/
structure Escape.Ok (e : Escape) : Prop where
  safe_ref : ∀ c ∈ ['&', '<', '>', '"', '\'', '/'], ∃ r, e.safe c = '&' :: r ++ [';'] ∧ decodeRef r = some c
  safe_same : ∀ c ∉ ['&', '<', '>', '"', '\'', '/'], e.safe c = [c]
  attr_ref : ∀ c, (∃ r, e.attr c = '&' :: r ++ [';'] ∧ decodeRef r = some c) ∨
    (e.attr c = [c] ∧ c ≠ '&' ∧ c ≠ '"')

/-- A character that may be part of the name of an element or of an attribute. -/
def nameChar (c : Char) : Bool :=
  !(isSpace c || c ∈ ['&', '<', '>', '"', '\'', '/', '=', '\x00', '\r'])

def ElementName (s : String) : Prop := (∃ c l, s.toList = c :: l ∧ isLetter c = true) ∧ ∀ c ∈ s.toList, nameChar c = true
def AttrName (s : String) : Prop := s ≠ "" ∧ ∀ c ∈ s.toList, nameChar c = true

/-- Texts that no conversion of newlines or of the zero character changes. -/
def Plain (s : String) : Prop := ∀ c ∈ s.toList, c ≠ '\r' ∧ c ≠ '\x00'

/-- The name as HTML has it. -/
def htmlName (s : String) : List Char := s.toList.map lower

/-- The attributes as a browser should read them. -/
def htmlAttrs (attr : OrderedMap) : List (List Char × List Char) :=
  (attr.getIter.getD []).map fun e => (htmlName e.1, e.2.toList)

/-- Elements whose content is read as text, but not as the text that is written. -/
def Forbidden (name : String) : Prop :=
  htmlName name ∈ ["xmp", "iframe", "noembed", "noframes", "noscript", "plaintext"].map String.toList

/-- Elements with text only. -/
def TextOnly (name : String) : Prop :=
  htmlName name ∈ ["title", "textarea", "script", "style"].map String.toList

/-- Elements that have a start tag only (WHATWG HTML, 13.1.2 and, for `param`, 13.2.6.4.7). -/
def Void (name : String) : Prop :=
  htmlName name ∈ ["area", "base", "br", "col", "embed", "hr", "img", "input", "link", "meta", "param", "source",
    "track", "wbr"].map String.toList

instance (name : String) : Decidable (Void name) := inferInstanceAs (Decidable (_ ∈ _))

/-- Elements whose text is read without character references. -/
def Unescaped (name : String) : Prop := htmlName name ∈ ["script", "style"].map String.toList

/-- The texts among nodes, concatenated. -/
def texts : List HtmlNode → List Char
  | [] => []
  | .text t :: l => t.toList ++ texts l
  | _ :: l => texts l

def IsElement : HtmlNode → Prop
  | .element _ _ _ => True
  | _ => False

def IsText : HtmlNode → Prop
  | .text _ => True
  | _ => False

mutual
/-- The documents considered: sensible names (they are written by the programmer), any texts
and values.  Text elements have only texts; a script or style sheet has no `<`; void elements have names
in lower case and nothing inside (it could not be written). -/
def Ok : HtmlNode → Prop
  | .element name attr children =>
      ElementName name ∧ ¬ Forbidden name ∧
      (∀ a ∈ attr.getIter.getD [], AttrName a.1 ∧ Plain a.2) ∧ ((htmlAttrs attr).map (·.1)).Nodup ∧
      (TextOnly name → ∀ c ∈ children, ¬ IsElement c) ∧ (Unescaped name → ∀ c ∈ texts children, c ≠ '<') ∧
      (Void name → htmlName name = name.toList ∧ children = []) ∧ AllOk children
  | .text t => Plain t
  | .comment _ => True
def AllOk : List HtmlNode → Prop
  | [] => True
  | n :: l => Ok n ∧ AllOk l
end

/-- White space between tags. -/
def Blank (ts : List Token) : Prop := ∀ t ∈ ts, t = .char ' ' ∨ t = .char '\n'

mutual
/-- The tokens show an element: its name, attributes and content. -/
inductive Shows : HtmlNode → List Token → Prop where
  /-- an element without content -/
  | void {name attr} (h : Void name) :
      Shows (.element name attr []) [.startTag (htmlName name) (htmlAttrs attr) true]
  /-- only text: read exactly as it is -/
  | text {name attr children} (hv : ¬ Void name) (h : ∀ c ∈ children, ¬ IsElement c) (h' : ∃ c ∈ children, IsText c) :
      Shows (.element name attr children)
        (.startTag (htmlName name) (htmlAttrs attr) false :: (texts children).map .char ++ [.endTag (htmlName name)])
  /-- elements inside, or nothing -/
  | children {name attr children ts} (hv : ¬ Void name) (h' : (∃ c ∈ children, IsElement c) ∨ ∀ c ∈ children, ¬ IsText c)
      (h : Content children ts) :
      Shows (.element name attr children)
        (.startTag (htmlName name) (htmlAttrs attr) false :: ts ++ [.endTag (htmlName name)])
/-- The tokens show a list of nodes, with white space between them; comments are left out, and
neighbouring texts are one. -/
inductive Content : List HtmlNode → List Token → Prop where
  | nil {ts} (h : Blank ts) : Content [] ts
  | element {n l w ts us} (hn : IsElement n) (hw : Blank w) (h : Shows n ts) (h' : Content l us) :
      Content (n :: l) (w ++ ts ++ us)
  | text {run l w us} (hr : ∀ n ∈ run, ¬ IsElement n) (hw : Blank w)
      (hl : ∀ n ∈ l.head?, IsElement n) (h : Content l us) :
      Content (run ++ l) (w ++ (texts run).map .char ++ us)
end

/-! ## Proofs -/

/-- The text takes the tokenizer from one state to another, and has no carriage return. -/
structure Reads (s : State) (a : List Char) (s' : State) (ts : List Token) : Prop where
  run : run s a = (s', ts)
  cr : '\r' ∉ a

theorem run_append (s : State) (a b : List Char) :
    run s (a ++ b) = ((run (run s a).1 b).1, (run s a).2 ++ (run (run s a).1 b).2) := by
  induction a generalizing s with
  | nil => simp [run]
  | cons c a ih =>
    simp only [List.cons_append, run, ih, List.append_assoc]

theorem Reads.nil {s : State} : Reads s [] s [] := ⟨rfl, by simp⟩

theorem Reads.append {s s' s'' : State} {a b : List Char} {ts us : List Token} (h : Reads s a s' ts) (h' : Reads s' b s'' us) :
    Reads s (a ++ b) s'' (ts ++ us) := by
  refine ⟨?_, by simp [h.cr, h'.cr]⟩
  rw [run_append, h.run]; simp [h'.run]

theorem Reads.single {s s' : State} {c : Char} {ts : List Token} (h : step s c = (s', ts)) (hc : c ≠ '\r') : Reads s [c] s' ts :=
  ⟨by simp [Verif.Ssr.run, h], by simpa using hc.symm⟩

theorem Reads.cons {s s' s'' : State} {c : Char} {b : List Char} {ts us : List Token} (h : step s c = (s', ts)) (hc : c ≠ '\r')
    (h' : Reads s' b s'' us) : Reads s (c :: b) s'' (ts ++ us) := (Reads.single h hc).append h'

def afterRef (x : Char) : Return → State × List Token
  | .text m => (.text m, [.char x])
  | .value t n v => (.attrValue t n (v ++ [x]), [])

/-- Reading a reference. -/
theorem reads_ref {r : Return} {x : Char} {buf : List Char} (h : decodeRef buf = some x) :
    Reads (.charRef r []) (buf ++ [';']) (afterRef x r).1 (afterRef x r).2 := by
  have key : buf ∈ ["amp".toList, "lt".toList, "gt".toList, "quot".toList, "#x27".toList, "#x2F".toList] := by
    simp only [decodeRef] at h
    repeat' split at h
    all_goals simp_all
  have collect : ∀ (buf acc : List Char), (∀ c ∈ buf, isRefChar c = true ∧ c ≠ ';' ∧ c ≠ '\r') → Reads (.charRef r acc) buf (.charRef r (acc ++ buf)) [] := by
    intro buf
    induction buf with
    | nil => intro acc _; simpa using Reads.nil
    | cons c l ih =>
      intro acc hc
      have hc1 := hc c List.mem_cons_self
      have := ih (acc ++ [c]) (fun x hx => hc x (List.mem_cons_of_mem _ hx))
      rw [List.append_assoc] at this
      refine Reads.cons (ts := []) ?_ hc1.2.2 this
      simp [step, hc1]
  have hb : ∀ c ∈ buf, isRefChar c = true ∧ c ≠ ';' ∧ c ≠ '\r' := by
    simp only [List.mem_cons, List.not_mem_nil, or_false] at key
    rcases key with rfl | rfl | rfl | rfl | rfl | rfl <;> decide
  have h2 : Reads (.charRef r buf) [';'] (afterRef x r).1 (afterRef x r).2 := by
    refine Reads.single ?_ (by decide)
    cases r <;> simp [step, h, afterRef]
  simpa using (collect buf [] hb).append h2

/-- Modes in which references are decoded. -/
def Mode.decodes (m : Mode) : Prop := m = .data ∨ ∃ n, m = .rcdata n

theorem text_safe {e : Escape} (he : e.Ok) {m : Mode} (hm : m.decodes) {c : Char} (hc : c ≠ '\r' ∧ c ≠ '\x00') :
    Reads (.text m) (e.safe c) (.text m) [.char c] := by
  by_cases h : c ∈ ['&', '<', '>', '"', '\'', '/']
  · obtain ⟨r, h1, h2⟩ := he.safe_ref c h
    rw [h1]
    have hs : step (.text m) '&' = (.charRef (.text m) [], []) := by
      rcases hm with rfl | ⟨n, rfl⟩ <;> rfl
    exact Reads.cons hs (by decide) (reads_ref h2)
  · rw [he.safe_same c h]
    simp only [List.mem_cons, List.not_mem_nil, or_false, not_or] at h
    refine Reads.single ?_ hc.1
    rcases hm with rfl | ⟨n, rfl⟩ <;> simp [step, stepText, h, hc]

theorem text_safe_all {e : Escape} (he : e.Ok) {m : Mode} (hm : m.decodes) :
    ∀ {l : List Char}, (∀ c ∈ l, c ≠ '\r' ∧ c ≠ '\x00') → Reads (.text m) (l.flatMap e.safe) (.text m) (l.map .char)
  | [], _ => .nil
  | c :: l, h => by
      rw [List.flatMap_cons]
      exact (text_safe he hm (h c List.mem_cons_self)).append (text_safe_all he hm fun x hx => h x (List.mem_cons_of_mem _ hx))

/-- Text in a script or style sheet. -/
theorem text_raw {m : Mode} (hm : ¬ m.decodes) : ∀ {l : List Char}, (∀ c ∈ l, c ≠ '\r' ∧ c ≠ '\x00' ∧ c ≠ '<') →
    Reads (.text m) l (.text m) (l.map .char)
  | [], _ => .nil
  | c :: l, h => by
      have hc := h c List.mem_cons_self
      refine Reads.cons (ts := [.char c]) ?_ hc.1 (text_raw hm fun x hx => h x (List.mem_cons_of_mem _ hx))
      cases m with
      | data => exact absurd (.inl rfl) hm
      | rcdata n => exact absurd (.inr ⟨n, rfl⟩) hm
      | rawtext n => simp [step, stepText, hc]
      | script => simp [step, stepText, hc]

/-- White space is read as such in every mode. -/
theorem text_blank {m : Mode} : ∀ {l : List Char}, (∀ c ∈ l, c = ' ' ∨ c = '\n') → Reads (.text m) l (.text m) (l.map .char)
  | [], _ => .nil
  | c :: l, h => by
      have hc := h c List.mem_cons_self
      refine Reads.cons (ts := [.char c]) ?_ (by rcases hc with rfl | rfl <;> decide) (text_blank fun x hx => h x (List.mem_cons_of_mem _ hx))
      rcases hc with rfl | rfl <;> cases m <;> simp [step, stepText]

theorem value_attr {e : Escape} (he : e.Ok) {t : Tag} {n : List Char} : ∀ {l v : List Char}, (∀ c ∈ l, c ≠ '\r' ∧ c ≠ '\x00') →
    Reads (.attrValue t n v) (l.flatMap e.attr) (.attrValue t n (v ++ l)) []
  | [], v, _ => by simpa using Reads.nil
  | c :: l, v, h => by
      have hc := h c List.mem_cons_self
      have ih := value_attr he (t := t) (n := n) (l := l) (v := v ++ [c]) fun x hx => h x (List.mem_cons_of_mem _ hx)
      have h1 : Reads (.attrValue t n v) (e.attr c) (.attrValue t n (v ++ [c])) [] := by
        rcases he.attr_ref c with ⟨r, h1, h2⟩ | ⟨h1, h2, h3⟩
        · rw [h1]
          exact Reads.cons (s' := .charRef (.value t n v) []) (ts := []) (by simp [step]) (by decide) (reads_ref h2)
        · rw [h1]; exact Reads.single (by simp [step, h2, h3, hc]) hc.1
      rw [List.flatMap_cons]
      simpa using h1.append ih

theorem nameChar_not {c : Char} (h : nameChar c = true) :
    isSpace c = false ∧ c ∉ ['&', '<', '>', '"', '\'', '/'] ∧ c ≠ '=' ∧ c ≠ '\x00' ∧ c ≠ '\r' ∧ c ≠ '>' ∧ c ≠ '/' := by
  simp only [nameChar, Bool.not_eq_true', Bool.or_eq_false_iff, decide_eq_false_iff_not, List.mem_cons, List.not_mem_nil, or_false, not_or] at h
  simp only [List.mem_cons, List.not_mem_nil, or_false, not_or]
  tauto

theorem encode_name {e : Escape} (he : e.Ok) {l : List Char} (h : ∀ c ∈ l, nameChar c = true) : l.flatMap e.safe = l := by
  induction l with
  | nil => rfl
  | cons c l ih =>
    rw [List.flatMap_cons, he.safe_same c (nameChar_not (h c List.mem_cons_self)).2.1, ih fun x hx => h x (List.mem_cons_of_mem _ hx)]
    rfl

theorem reads_tagName {b : Bool} : ∀ {l n : List Char}, (∀ c ∈ l, nameChar c = true) →
    Reads (.tagName b n) l (.tagName b (n ++ l.map lower)) []
  | [], n, _ => by simpa using Reads.nil
  | c :: l, n, h => by
      obtain ⟨h1, _, _, h2, h5, h3, h4⟩ := nameChar_not (h c List.mem_cons_self)
      have := reads_tagName (b := b) (n := n ++ [lower c]) fun x hx => h x (List.mem_cons_of_mem _ hx)
      rw [List.append_assoc] at this
      refine Reads.cons (ts := []) ?_ h5 this
      simp [step, h1, h2, h3, h4]

theorem reads_attrName {t : Tag} : ∀ {l n : List Char}, (∀ c ∈ l, nameChar c = true) →
    Reads (.attrName t n) l (.attrName t (n ++ l.map lower)) []
  | [], n, _ => by simpa using Reads.nil
  | c :: l, n, h => by
      obtain ⟨h1, _, h0, h2, h5, h3, h4⟩ := nameChar_not (h c List.mem_cons_self)
      have := reads_attrName (t := t) (n := n ++ [lower c]) fun x hx => h x (List.mem_cons_of_mem _ hx)
      rw [List.append_assoc] at this
      refine Reads.cons (ts := []) ?_ h5 this
      simp [step, h0, h1, h2, h3, h4]

/-- Inside of a tag, before white space or the end. -/
def InTag (s : State) (t : Tag) : Prop :=
  (∃ b n, s = .tagName b n ∧ t = ⟨b, n, []⟩) ∨ s = .afterAttrValue t

theorem inTag_space {s : State} {t : Tag} (h : InTag s t) : Reads s [' '] (.beforeAttrName t) [] := by
  refine Reads.single ?_ (by decide)
  rcases h with ⟨b, n, rfl, rfl⟩ | rfl <;> simp [step, isSpace]

theorem inTag_end {s : State} {t : Tag} (h : InTag s t) : Reads s ['>'] (emit t false).1 (emit t false).2 := by
  refine Reads.single ?_ (by decide)
  rcases h with ⟨b, n, rfl, rfl⟩ | rfl <;> simp [step, isSpace]

theorem inTag_selfClosing {s : State} {t : Tag} (h : InTag s t) : Reads s [' ', '/', '>'] (emit t true).1 (emit t true).2 :=
  (inTag_space h).append (Reads.cons (s' := .selfClosing t) (ts := []) (by simp [step, stepBeforeAttrName, isSpace]) (by decide)
    (Reads.single (by simp [step]) (by decide)))

theorem reads_attrs {e : Escape} (he : e.Ok) : ∀ {l : List (String × String)} {s : State} {t : Tag}, InTag s t →
    (∀ a ∈ l, AttrName a.1 ∧ Plain a.2) → (t.attrs.map (·.1) ++ l.map fun a => htmlName a.1).Nodup →
    ∃ s', Reads s (attributesLoop e l) s' [] ∧ InTag s' { t with attrs := t.attrs ++ l.map fun a => (htmlName a.1, a.2.toList) }
  | [], s, t, hs, _, _ => ⟨s, .nil, by simpa using hs⟩
  | (name, value) :: l, s, t, hs, hok, hn => by
      obtain ⟨⟨hne, hname⟩, hvalue⟩ := hok _ List.mem_cons_self
      obtain ⟨c, cs, hcs⟩ : ∃ c cs, name.toList = c :: cs := by
        cases h : name.toList with
        | nil => exact absurd (String.toList_eq_nil_iff.mp h) hne
        | cons c cs => exact ⟨c, cs, rfl⟩
      have hnc := hname c (by simp [hcs])
      obtain ⟨h1, _, h0, h2, h5, h3, h4⟩ := nameChar_not hnc
      have r1 : Reads (.beforeAttrName t) (e.encodeSafe name) (.attrName t (htmlName name)) [] := by
        rw [Escape.encodeSafe, encode_name he hname, htmlName, hcs, List.map_cons]
        refine Reads.cons (ts := []) ?_ h5
          (reads_attrName (t := t) (n := [lower c]) fun x hx => hname x (by rw [hcs]; exact List.mem_cons_of_mem _ hx))
        simp [step, stepBeforeAttrName, h0, h1, h3, h4]
      have r2 : Reads (.attrName t (htmlName name)) ['=', '"'] (.attrValue t (htmlName name) []) [] :=
        Reads.cons (s' := .beforeAttrValue t (htmlName name)) (ts := []) (by simp [step, isSpace]) (by decide)
          (Reads.single (by simp [step]) (by decide))
      have r3 := value_attr he (t := t) (n := htmlName name) (v := []) hvalue
      have hnot : t.attrs.any (·.1 = htmlName name) = false := by
        rw [List.any_eq_false]
        intro x hx
        rw [List.nodup_append] at hn
        have := hn.2.2 x.1 (List.mem_map_of_mem hx) (htmlName name) (by simp)
        simpa using this
      have r4 : Reads (.attrValue t (htmlName name) value.toList) ['"']
          (.afterAttrValue { t with attrs := t.attrs ++ [(htmlName name, value.toList)] }) [] :=
        Reads.single (by simp [step, Tag.addAttr, hnot]) (by decide)
      obtain ⟨s', h6, h7⟩ := reads_attrs he (l := l) (s := .afterAttrValue { t with attrs := t.attrs ++ [(htmlName name, value.toList)] })
        (t := { t with attrs := t.attrs ++ [(htmlName name, value.toList)] }) (.inr rfl)
        (fun a ha => hok a (List.mem_cons_of_mem _ ha)) (by simpa using hn)
      refine ⟨s', ?_, by simpa using h7⟩
      have := (((((inTag_space hs).append r1).append r2).append r3).append r4).append h6
      simpa [attributesLoop, Escape.encodeAttribute] using this

/-- The name and the attributes of a start tag. -/
theorem reads_open {e : Escape} (he : e.Ok) {name : String} {attr : OrderedMap} (hn : ElementName name)
    (ha : ∀ a ∈ attr.getIter.getD [], AttrName a.1 ∧ Plain a.2) (hd : ((htmlAttrs attr).map (·.1)).Nodup) :
    ∃ s, Reads (.text .data) (['<'] ++ e.encodeSafe name ++ attributesToString e attr) s [] ∧
      InTag s ⟨false, htmlName name, htmlAttrs attr⟩ := by
  obtain ⟨⟨c, l, hc, hl⟩, hall⟩ := hn
  have hcr : c ≠ '\r' := by rintro rfl; revert hl; decide
  have r1 : Reads (.text .data) (['<'] ++ e.encodeSafe name) (.tagName false (htmlName name)) [] := by
    rw [Escape.encodeSafe, encode_name he hall, htmlName, hc, List.map_cons]
    refine Reads.cons (s' := .tagOpen) (ts := []) (by simp [step, stepText]) (by decide) ?_
    have hc1 : c ≠ '!' ∧ c ≠ '/' := by constructor <;> (rintro rfl; revert hl; decide)
    refine Reads.cons (ts := []) ?_ hcr
      (reads_tagName (b := false) (n := [lower c]) fun x hx => hall x (by rw [hc]; exact List.mem_cons_of_mem _ hx))
    simp [step, hl, hc1]
  have hd' : ((attr.getIter.getD []).map fun a => htmlName a.1).Nodup := by
    simpa [htmlAttrs, List.map_map, Function.comp_def] using hd
  obtain ⟨s, h1, h2⟩ := reads_attrs he (l := attr.getIter.getD []) (s := .tagName false (htmlName name))
    (t := ⟨false, htmlName name, []⟩) (.inl ⟨_, _, rfl, rfl⟩) ha (by simpa using hd')
  exact ⟨s, r1.append h1, by simpa [htmlAttrs] using h2⟩

theorem lower_letter {c : Char} (h : 'a' ≤ lower c ∧ lower c ≤ 'z') : isLetter c = true := by
  simp only [lower] at h
  split at h <;> simp_all [isLetter]

/-- An end tag, in any mode. -/
theorem reads_close {e : Escape} (he : e.Ok) {name : String} (hn : ElementName name) {m : Mode}
    (hm : m = .data ∨ (m.endName = htmlName name ∧ ∀ c ∈ htmlName name, 'a' ≤ c ∧ c ≤ 'z')) :
    Reads (.text m) (['<', '/'] ++ e.encodeSafe name ++ ['>']) (.text .data) [.endTag (htmlName name)] := by
  obtain ⟨⟨c, l, hc, hl⟩, hall⟩ := hn
  have hcr : c ≠ '\r' := by rintro rfl; revert hl; decide
  rw [Escape.encodeSafe, encode_name he hall]
  by_cases hd : m = .data
  · subst hd
    have r1 : Reads (.text .data) (['<', '/'] ++ name.toList) (.tagName true (htmlName name)) [] := by
      rw [htmlName, hc, List.map_cons]
      refine Reads.cons (s' := .tagOpen) (ts := []) (by simp [step, stepText]) (by decide) ?_
      refine Reads.cons (s' := .endTagOpen) (ts := []) (by simp [step]) (by decide) ?_
      refine Reads.cons (ts := []) ?_ hcr
        (reads_tagName (b := true) (n := [lower c]) fun x hx => hall x (by rw [hc]; exact List.mem_cons_of_mem _ hx))
      simp [step, hl]
    exact r1.append (inTag_end (t := ⟨true, htmlName name, []⟩) (.inl ⟨_, _, rfl, rfl⟩))
  · obtain ⟨h1, h2⟩ := hm.resolve_left hd
    have r1 : Reads (.text m) ['<', '/'] (.rawEnd m []) [] := by
      refine Reads.cons (s' := .rawLess m) (ts := []) ?_ (by decide) (Reads.single (by simp [step]) (by decide))
      cases m with
      | data => exact absurd rfl hd
      | _ => simp [step, stepText]
    have letters : ∀ (l acc : List Char), (∀ c ∈ l, isLetter c = true) → Reads (.rawEnd m acc) l (.rawEnd m (acc ++ l)) [] := by
      intro l
      induction l with
      | nil => intro acc _; simpa using Reads.nil
      | cons c l ih =>
        intro acc h
        have hc := h c List.mem_cons_self
        have := ih (acc ++ [c]) fun x hx => h x (List.mem_cons_of_mem _ hx)
        rw [List.append_assoc] at this
        refine Reads.cons (ts := []) ?_ (by rintro rfl; revert hc; decide) this
        simp [step, hc]
    have r2 := letters name.toList [] fun x hx => lower_letter (h2 _ (List.mem_map_of_mem hx))
    have r3 : Reads (.rawEnd m name.toList) ['>'] (.text .data) [.endTag (htmlName name)] := by
      refine Reads.single ?_ (by decide)
      have : isLetter '>' = false := by decide
      have h3 : isSpace '>' = false := by decide
      simp only [htmlName] at h1
      simp [step, this, h3, h1, htmlName]
    exact (r1.append r2).append r3

/-- The mode after the start tag of an element. -/
theorem mode_after {name : String} (hf : ¬ Forbidden name) : ∃ m, modeAfter (htmlName name) = .text m ∧
    (m = .data ∨ (m.endName = htmlName name ∧ ∀ c ∈ htmlName name, 'a' ≤ c ∧ c ≤ 'z')) ∧
    (isRaw name = true → ¬ m.decodes) ∧ (isRaw name = false → m.decodes) ∧ (¬ TextOnly name → m = .data) := by
  simp only [Forbidden, List.map_cons, List.map_nil, List.mem_cons, List.not_mem_nil, or_false, not_or] at hf
  obtain ⟨h1, h2, h3, h4, h5, h6⟩ := hf
  have hr : isRaw name = true ↔ (htmlName name = "script".toList ∨ htmlName name = "style".toList) := by
    simp [isRaw, htmlName]
  by_cases ht : htmlName name = "title".toList ∨ htmlName name = "textarea".toList
  · refine ⟨.rcdata (htmlName name), by simp only [modeAfter, if_pos ht], .inr ⟨rfl, ?_⟩, ?_, fun _ => .inr ⟨_, rfl⟩, ?_⟩
    · rcases ht with ht | ht <;> rw [ht] <;> decide
    · intro h
      rw [hr] at h
      rcases ht with ht | ht <;> rw [ht] at h <;> exact absurd h (by decide)
    · intro h
      exact absurd (by rcases ht with ht | ht <;> simp [TextOnly, ht]) h
  · by_cases hs : htmlName name = "style".toList
    · refine ⟨.rawtext (htmlName name), by rw [hs]; rfl, .inr ⟨rfl, by rw [hs]; decide⟩, ?_, ?_, ?_⟩
      · intro _ hd
        rcases hd with hd | ⟨_, hd⟩ <;> cases hd
      · intro h
        rw [hr.mpr (.inr hs)] at h; cases h
      · intro h; exact absurd (by simp [TextOnly, hs]) h
    · by_cases hsc : htmlName name = "script".toList
      · refine ⟨.script, by rw [hsc]; rfl, .inr ⟨by rw [hsc]; rfl, by rw [hsc]; decide⟩, ?_, ?_, ?_⟩
        · intro _ hd
          rcases hd with hd | ⟨_, hd⟩ <;> cases hd
        · intro h
          rw [hr.mpr (.inl hsc)] at h; cases h
        · intro h; exact absurd (by simp [TextOnly, hsc]) h
      · refine ⟨.data, ?_, .inl rfl, ?_, fun _ => .inl rfl, fun _ => rfl⟩
        · simp only [modeAfter, if_neg ht, List.map_cons, List.map_nil, List.mem_cons, List.not_mem_nil, or_false, h1, h2, h3, h4, h5, h6, hs, hsc, if_false]
        · intro h; exact absurd (hr.mp h) (not_or.mpr ⟨hsc, hs⟩)

/-! ### Children -/

/-- The texts waiting to be joined. -/
def pending (last : Option (List String)) : List Char := (last.getD []).flatMap String.toList

theorem flush_eq (last : Option (List String)) : flush last = if last.isSome then [.text (pending last)] else [] := by
  cases last <;> rfl

theorem pending_add (last : Option (List String)) (t : String) : pending (lastTextAdd last t) = pending last ++ t.toList := by
  cases last <;> simp [pending, lastTextAdd]

theorem add_isSome (last : Option (List String)) (t : String) : (lastTextAdd last t).isSome = true := by
  cases last <;> rfl

/-- Children without elements. -/
theorem items_texts {e : Escape} {ident : Ident} : ∀ {l : List HtmlNode} {last : Option (List String)}, (∀ c ∈ l, ¬ IsElement c) →
    (last.isSome = true ∨ (∃ c ∈ l, IsText c)) ∧ items e ident last l = [.text (pending last ++ texts l)] ∨
    (¬ (last.isSome = true ∨ (∃ c ∈ l, IsText c))) ∧ items e ident last l = []
  | [], last, _ => by
      cases last <;> simp [items, flush, texts, pending]
  | .text t :: l, last, h => by
      left
      have := items_texts (e := e) (ident := ident) (l := l) (last := lastTextAdd last t) fun c hc => h c (List.mem_cons_of_mem _ hc)
      rcases this with ⟨_, h2⟩ | ⟨h1, _⟩
      · refine ⟨.inr ⟨_, List.mem_cons_self, trivial⟩, ?_⟩
        rw [items, h2, pending_add]; simp [texts]
      · exact absurd (.inl (add_isSome _ _)) h1
  | .comment t :: l, last, h => by
      have := items_texts (e := e) (ident := ident) (l := l) (last := last) fun c hc => h c (List.mem_cons_of_mem _ hc)
      have e1 : (∃ c ∈ HtmlNode.comment t :: l, IsText c) ↔ ∃ c ∈ l, IsText c := by
        simp [IsText]
      rw [e1, items]
      simpa [texts] using this
  | .element n a ch :: l, _, h => absurd trivial (h _ List.mem_cons_self)

theorem items_one {e : Escape} {ident : Ident} : ∀ {l : List HtmlNode} {last : Option (List String)},
    (∃ c ∈ l, IsElement c) → ∃ ls, .element ls ∈ items e ident last l
  | .text t :: l, last, h => by
      obtain ⟨c, hc, h⟩ := h
      rcases List.mem_cons.mp hc with rfl | hc
      · cases h
      · rw [items]; exact items_one ⟨c, hc, h⟩
  | .comment t :: l, last, h => by
      obtain ⟨c, hc, h⟩ := h
      rcases List.mem_cons.mp hc with rfl | hc
      · cases h
      · rw [items]; exact items_one ⟨c, hc, h⟩
  | .element n a ch :: l, last, _ => by
      rw [items]
      exact ⟨_, List.mem_append_right _ List.mem_cons_self⟩

/-- `sep` before each line. -/
def sepAll (sep : List Char) (ls : List (List Char)) : List Char := ls.flatMap (sep ++ ·)

theorem joinLines_cons (sep l : List Char) (ls : List (List Char)) : joinLines sep (l :: ls) = l ++ sepAll sep ls := by
  induction ls generalizing l with
  | nil => simp [joinLines, sepAll]
  | cons m ls ih =>
    rw [joinLines, ih]
    · simp [sepAll]
    · simp

theorem sepAll_append (sep : List Char) (a b : List (List Char)) : sepAll sep (a ++ b) = sepAll sep a ++ sepAll sep b := by
  simp [sepAll]

theorem plain_texts : ∀ {l : List HtmlNode}, AllOk l → ∀ c ∈ texts l, c ≠ '\r' ∧ c ≠ '\x00'
  | [], _, c, hc => by cases hc
  | .text t :: l, h, c, hc => by
      rw [texts, List.mem_append] at hc
      rcases hc with hc | hc
      · exact h.1 c hc
      · exact plain_texts h.2 c hc
  | .comment t :: l, h, c, hc => plain_texts h.2 c hc
  | .element _ _ _ :: l, h, c, hc => plain_texts h.2 c hc

theorem texts_append (a b : List HtmlNode) : texts (a ++ b) = texts a ++ texts b := by
  induction a with
  | nil => rfl
  | cons n a ih => cases n <;> simp [texts, ih]

theorem blank_chars {l : List Char} (h : ∀ c ∈ l, c = ' ' ∨ c = '\n') : Blank (l.map .char) := by
  intro t ht
  obtain ⟨c, hc, rfl⟩ := List.mem_map.mp ht
  rcases h c hc with rfl | rfl
  · exact .inl rfl
  · exact .inr rfl

theorem Blank.append {a b : List Token} (ha : Blank a) (hb : Blank b) : Blank (a ++ b) := by
  intro t ht
  rcases List.mem_append.mp ht with h | h
  · exact ha t h
  · exact hb t h

theorem ident_blank (sep : List Char) (hs : ∀ c ∈ sep, c = ' ' ∨ c = '\n') (ident : Ident) : ∀ c ∈ sep ++ ident.get, c = ' ' ∨ c = '\n' := by
  intro c hc
  rcases List.mem_append.mp hc with hc | hc
  · exact hs c hc
  · cases ident with
    | none => cases hc
    | some n => exact .inl (List.eq_of_mem_replicate hc)

theorem no_texts {l : List HtmlNode} (h : ∀ c ∈ l, ¬ IsText c) : texts l = [] := by
  induction l with
  | nil => rfl
  | cons n l ih =>
    cases n with
    | text t => exact absurd trivial (h _ List.mem_cons_self)
    | element _ _ _ => exact ih fun c hc => h c (List.mem_cons_of_mem _ hc)
    | comment _ => exact ih fun c hc => h c (List.mem_cons_of_mem _ hc)

theorem isSelfClosing_iff {name : String} (h : Void name → htmlName name = name.toList) :
    isSelfClosing name = true ↔ Void name := by
  constructor
  · intro h
    simp only [isSelfClosing, List.mem_cons, List.not_mem_nil, or_false, decide_eq_true_eq] at h
    rcases h with rfl | rfl | rfl | rfl | rfl | rfl | rfl | rfl | rfl | rfl | rfl | rfl | rfl | rfl <;> decide
  · intro hv
    have hn := h hv
    simp only [Void, hn, List.map_cons, List.map_nil, List.mem_cons, List.not_mem_nil, or_false, String.toList_inj] at hv
    simpa [isSelfClosing] using hv

theorem nodeLines_children {e : Escape} {ident : Ident} {name : String} {attr : OrderedMap} {children : List HtmlNode}
    (h : isSelfClosing name = false) (hne : ∀ x, items e (ident.add 2) none children ≠ [.text x]) :
    nodeLines e ident (.element name attr children) =
      [ident.get ++ ['<'] ++ e.encodeSafe name ++ attributesToString e attr ++ ['>']] ++
        (items e (ident.add 2) none children).flatMap (itemLines e (ident.add 2)) ++
        [ident.get ++ ['<', '/'] ++ e.encodeSafe name ++ ['>']] := by
  rw [nodeLines, h]
  generalize items e (ident.add 2) none children = l at hne
  match l, hne with
  | [], _ => rfl
  | [.text x], hne => exact absurd rfl (hne x)
  | [.element x], _ => rfl
  | .text x :: y :: l, _ => rfl
  | .element x :: y :: l, _ => rfl

theorem flush_shown {e : Escape} (he : e.Ok) {sep : List Char} (hsep : ∀ c ∈ sep, c = ' ' ∨ c = '\n') (ident : Ident)
    (last : Option (List String)) (hpl : ∀ c ∈ pending last, c ≠ '\r' ∧ c ≠ '\x00') :
    ∃ us, Reads (.text .data) (sepAll sep ((flush last).flatMap (itemLines e ident))) (.text .data) us ∧
      ∃ w, us = w ++ (pending last).map .char ∧ Blank w := by
  cases last with
  | none => exact ⟨[], .nil, [], rfl, by intro _ h; cases h⟩
  | some ts =>
    have hb := ident_blank sep hsep ident
    refine ⟨_, ?_, (sep ++ ident.get).map .char, rfl, blank_chars hb⟩
    have := (text_blank (m := .data) hb).append (text_safe_all he (m := .data) (.inl rfl) hpl)
    simpa [flush, itemLines, sepAll, pending] using this

mutual
theorem element_shown {e : Escape} (he : e.Ok) {sep : List Char} (hsep : ∀ c ∈ sep, c = ' ' ∨ c = '\n') :
    ∀ (n : HtmlNode), IsElement n → Ok n → ∀ ident, ∃ w ts, Reads (.text .data) (sepAll sep (nodeLines e ident n)) (.text .data) (w ++ ts) ∧
      Blank w ∧ Shows n ts
  | .text _, h, _, _ => absurd h id
  | .comment _, h, _, _ => absurd h id
  | .element name attr children, _, hok, ident => by
      obtain ⟨hname, hforb, hattr, hdup, htext, hraw, hvoid, hch⟩ := hok
      have hiff := isSelfClosing_iff fun h => (hvoid h).1
      obtain ⟨s, hopen, hin⟩ := reads_open he hname hattr hdup
      have hblank := ident_blank sep hsep ident
      have hindent : Reads (.text .data) (sep ++ ident.get) (.text .data) ((sep ++ ident.get).map .char) := text_blank hblank
      obtain ⟨m, hm, hend, hr1, hr2, hr3⟩ := mode_after hforb
      have hclose := reads_close he hname hend
      by_cases hsc : isSelfClosing name = true
      · obtain rfl := (hvoid (hiff.1 hsc)).2
        refine ⟨(sep ++ ident.get).map .char, _, ?_, blank_chars hblank, .void (hiff.1 hsc)⟩
        have hd : m = .data := by
          apply hr3
          simp only [TextOnly, List.map_cons, List.map_nil, List.mem_cons, List.not_mem_nil, or_false]
          simp only [isSelfClosing, List.mem_cons, List.not_mem_nil, or_false, decide_eq_true_eq] at hsc
          rcases hsc with rfl | rfl | rfl | rfl | rfl | rfl | rfl | rfl | rfl | rfl | rfl | rfl | rfl | rfl <;> decide
        have h1 := inTag_selfClosing hin
        simp only [emit, Bool.false_eq_true, if_false, hm, hd] at h1
        have := (hindent.append hopen).append h1
        simpa [nodeLines, hsc, sepAll] using this
      · have hnv : ¬ Void name := fun h => hsc (hiff.2 h)
        have hstart := inTag_end hin
        simp only [emit, Bool.false_eq_true, if_false, hm] at hstart
        have hstart := (hindent.append hopen).append hstart
        have hclosed : ∀ ls : List (List Char), (∀ x, items e (ident.add 2) none children ≠ [.text x]) →
            ls = (items e (ident.add 2) none children).flatMap (itemLines e (ident.add 2)) →
            sepAll sep (nodeLines e ident (.element name attr children)) =
              sep ++ ident.get ++ (['<'] ++ e.encodeSafe name ++ attributesToString e attr) ++ ['>'] ++ sepAll sep ls ++
                (sep ++ ident.get ++ (['<', '/'] ++ e.encodeSafe name ++ ['>'])) := by
          rintro ls hne rfl
          rw [nodeLines_children (by simpa using hsc) hne]
          simp [sepAll]
        by_cases hel : ∀ c ∈ children, ¬ IsElement c
        · rcases items_texts (e := e) (ident := ident.add 2) (last := none) hel with ⟨h1, h2⟩ | ⟨h1, h2⟩
          · -- text mode
            simp only [pending, Option.getD_none, List.flatMap_nil, List.nil_append] at h2
            have hsome : ∃ c ∈ children, IsText c := by simpa using h1
            refine ⟨(sep ++ ident.get).map .char, _, ?_, blank_chars hblank, .text hnv hel hsome⟩
            have hbody : Reads (.text m) (if isRaw name = true then texts children else (texts children).flatMap e.safe) (.text m)
                ((texts children).map .char) := by
              have hp := plain_texts hch
              cases hraw' : isRaw name with
              | true =>
                rw [if_pos rfl]
                exact text_raw (hr1 hraw') fun c hc => ⟨(hp c hc).1, (hp c hc).2, hraw (by simpa [Unescaped, isRaw, htmlName] using hraw') c hc⟩
              | false =>
                rw [if_neg (by simp)]
                exact text_safe_all he (hr2 hraw') hp
            have := (hstart.append hbody).append hclose
            simpa [nodeLines, hsc, sepAll, h2] using this
          · -- nothing at all
            refine ⟨(sep ++ ident.get).map .char, _, ?_, blank_chars hblank,
              .children hnv (ts := (sep ++ ident.get).map .char) (.inr fun c hc h => h1 (.inr ⟨c, hc, h⟩)) ?_⟩
            · rw [hclosed [] (by simp [h2]) (by simp [h2])]
              have := (hstart.append (text_blank (m := m) hblank)).append hclose
              simpa [sepAll] using this
            · have hnt : ∀ c ∈ children, ¬ IsText c := by
                intro c hc h; exact h1 (.inr ⟨c, hc, h⟩)
              have htx : texts children = [] := no_texts hnt
              have := Content.text (run := children) (l := []) (w := []) hel (by intro _ h; cases h) (by simp) (.nil (blank_chars hblank))
              simpa [htx] using this
        · have hto : ¬ TextOnly name := fun h => hel (htext h)
          obtain rfl := hr3 hto
          have hex : ∃ c ∈ children, IsElement c := by
            simpa using hel
          obtain ⟨us, h1, h2⟩ := children_shown he hsep children hch (ident.add 2) none [] (by simp) rfl (by simp [pending])
          refine ⟨(sep ++ ident.get).map .char, _, ?_, blank_chars hblank, .children hnv (.inl hex) (h2 ((sep ++ ident.get).map .char) (blank_chars hblank))⟩
          rw [hclosed _ ?_ rfl]
          · have := (hstart.append h1).append (hindent.append hclose)
            simpa using this
          · intro x hx
            obtain ⟨ls, hls⟩ := items_one (e := e) (ident := ident.add 2) (last := none) hex
            rw [hx] at hls
            simp at hls
theorem children_shown {e : Escape} (he : e.Ok) {sep : List Char} (hsep : ∀ c ∈ sep, c = ' ' ∨ c = '\n') :
    ∀ (l : List HtmlNode), AllOk l → ∀ ident last run, (∀ n ∈ run, ¬ IsElement n) → texts run = pending last →
      (∀ c ∈ pending last, c ≠ '\r' ∧ c ≠ '\x00') →
      ∃ us, Reads (.text .data) (sepAll sep ((items e ident last l).flatMap (itemLines e ident))) (.text .data) us ∧
        ∀ v, Blank v → Content (run ++ l) (us ++ v)
  | [], _, ident, last, run, hrun, htx, hpl => by
      obtain ⟨us, h1, w, rfl, h2⟩ := flush_shown he hsep ident last hpl
      refine ⟨_, by rw [items]; exact h1, fun v hv => ?_⟩
      have := Content.text (run := run) (l := []) (w := w) hrun h2 (by simp) (.nil hv)
      simpa [htx] using this
  | .text t :: l, hok, ident, last, run, hrun, htx, hpl => by
      obtain ⟨us, h1, h2⟩ := children_shown he hsep l hok.2 ident (lastTextAdd last t) (run ++ [.text t])
        (by intro n hn
            rcases List.mem_append.mp hn with hn | hn
            · exact hrun n hn
            · rw [List.mem_singleton.mp hn]; exact id)
        (by rw [texts_append, htx, pending_add]; simp [texts])
        (by rw [pending_add]
            intro c hc
            rcases List.mem_append.mp hc with hc | hc
            · exact hpl c hc
            · exact hok.1 c hc)
      exact ⟨us, by rw [items]; exact h1, fun v hv => by simpa using h2 v hv⟩
  | .comment t :: l, hok, ident, last, run, hrun, htx, hpl => by
      obtain ⟨us, h1, h2⟩ := children_shown he hsep l hok.2 ident last (run ++ [.comment t])
        (by intro n hn
            rcases List.mem_append.mp hn with hn | hn
            · exact hrun n hn
            · rw [List.mem_singleton.mp hn]; exact id)
        (by rw [texts_append, htx]; simp [texts]) hpl
      exact ⟨us, by rw [items]; exact h1, fun v hv => by simpa using h2 v hv⟩
  | .element n a ch :: l, hok, ident, last, run, hrun, htx, hpl => by
      obtain ⟨us, h1, w, rfl, h2⟩ := flush_shown he hsep ident last hpl
      obtain ⟨w', ts, h3, h4, h5⟩ := element_shown he hsep (.element n a ch) trivial hok.1 ident
      obtain ⟨vs, h6, h7⟩ := children_shown he hsep l hok.2 ident none [] (by simp) rfl (by simp [pending])
      refine ⟨w ++ (pending last).map .char ++ ((w' ++ ts) ++ vs), ?_, fun v hv => ?_⟩
      · rw [items, List.flatMap_append, List.flatMap_cons, sepAll_append, sepAll_append]
        exact h1.append (h3.append h6)
      · have := Content.text (run := run) (l := .element n a ch :: l) (w := w) hrun h2 (by simp [IsElement])
          (.element (n := .element n a ch) trivial h4 h5 (h7 v hv))
        simpa [htx] using this
end

theorem normalize_id : ∀ {l : List Char}, '\r' ∉ l → normalize l = l
  | [], _ => rfl
  | [c], h => by
      have : c ≠ '\r' := by rintro rfl; simp at h
      simp [normalize, this]
  | c :: d :: l, h => by
      have hc : c ≠ '\r' := by rintro rfl; simp at h
      have ht : '\r' ∉ d :: l := fun h' => h (List.mem_cons_of_mem _ h')
      rw [normalize.eq_5 c (d :: l) (fun h _ => hc h) (fun _ h _ => hc h) (fun _ _ h _ => hc h), normalize_id ht]

/-! ## Theorems -/

/-- **C29.** Whatever texts and attribute values a document contains, a browser reads the page
as the document: the same elements, with the same attributes and the same texts; no text or value
becomes a tag, and none is lost.  (Not covered: `<` in scripts and style sheets, see below.) -/
theorem C29_page_partial {e : Escape} (he : e.Ok) (format : Bool) {root : HtmlNode} (hroot : IsElement root) (hok : Ok root) :
    ∃ w ts, tokenize (convertToString e format root) = some (.doctype :: w ++ ts) ∧ Blank w ∧ Shows root ts := by
  have hsep : ∀ c ∈ (if format = true then ['\n'] else []), c = ' ' ∨ c = '\n' := by cases format <;> simp
  obtain ⟨w, ts, h1, h2, h3⟩ := element_shown he hsep root hroot hok (if format then some 0 else none)
  refine ⟨w, ts, ?_, h2, h3⟩
  have hd : Reads (.text .data) "<!DOCTYPE html>".toList (.text .data) [.doctype] := ⟨rfl, by decide⟩
  have := hd.append h1
  rw [convertToString, joinLines_cons, tokenize, normalize_id this.cr, this.run]
  rfl

/-- The table in the documentation of `html_escape`. -/
def htmlEscape : Escape where
  safe c :=
    if c = '&' then "&amp;".toList
    else if c = '<' then "&lt;".toList
    else if c = '>' then "&gt;".toList
    else if c = '"' then "&quot;".toList
    else if c = '\'' then "&#x27;".toList
    else if c = '/' then "&#x2F;".toList
    else [c]
  attr c :=
    if c = '&' then "&amp;".toList
    else if c = '<' then "&lt;".toList
    else if c = '>' then "&gt;".toList
    else if c = '"' then "&quot;".toList
    else if c = '\'' then "&#x27;".toList
    else [c]

theorem htmlEscape_ok : htmlEscape.Ok where
  safe_ref := by
    simp only [List.mem_cons, List.not_mem_nil, or_false]
    rintro c (rfl | rfl | rfl | rfl | rfl | rfl)
    · exact ⟨"amp".toList, by decide, by decide⟩
    · exact ⟨"lt".toList, by decide, by decide⟩
    · exact ⟨"gt".toList, by decide, by decide⟩
    · exact ⟨"quot".toList, by decide, by decide⟩
    · exact ⟨"#x27".toList, by decide, by decide⟩
    · exact ⟨"#x2F".toList, by decide, by decide⟩
  safe_same := by
    intro c hc
    simp only [List.mem_cons, List.not_mem_nil, or_false, not_or] at hc
    simp [htmlEscape, hc]
  attr_ref := by
    intro c
    by_cases h1 : c = '&'
    · subst h1; exact .inl ⟨"amp".toList, by decide, by decide⟩
    by_cases h2 : c = '<'
    · subst h2; exact .inl ⟨"lt".toList, by decide, by decide⟩
    by_cases h3 : c = '>'
    · subst h3; exact .inl ⟨"gt".toList, by decide, by decide⟩
    by_cases h4 : c = '"'
    · subst h4; exact .inl ⟨"quot".toList, by decide, by decide⟩
    by_cases h5 : c = '\''
    · subst h5; exact .inl ⟨"#x27".toList, by decide, by decide⟩
    exact .inr ⟨by simp only [htmlEscape, if_neg h1, if_neg h2, if_neg h3, if_neg h4, if_neg h5], h1, h4⟩

/-- What is missing in `C29_page_partial`: the content of a `style` element is written as it is
(html_element.rs:172-176), and a class whose text comes from data ends up in such an element
(element.rs:185-199), so that data can add elements to the page: here a script. -/
theorem C29_style_violated :
    ∃ css : String, .startTag "script".toList [] false ∈
      ((tokenize (convertToString htmlEscape false
        (.element "style" {} [.text (".autocss_1 { " ++ css ++ " }")]))).getD []) :=
  ⟨"</style><script>alert(1)</script>", by decide +kernel⟩

/-- A carriage return in a text is not read back: it would have to be written `&#13;`. -/
theorem C29_carriage_return_violated :
    ¬ ∃ ts, tokenize (convertToString htmlEscape false (.element "p" {} [.text "a\rb"])) = some ts ∧ .char '\r' ∈ ts := by
  rintro ⟨ts, h, hm⟩
  have : (tokenize (convertToString htmlEscape false (.element "p" {} [.text "a\rb"]))).all (fun ts => decide (.char '\r' ∉ ts)) = true := by
    decide +kernel
  rw [h] at this
  exact (of_decide_eq_true this) hm

/-- A void element whose name is not in lower case is written with an end tag, which a browser reads as one more
element (`</BR>`). -/
theorem C29_void_violated : ∃ name, Void name ∧
    .endTag (htmlName name) ∈ (tokenize (convertToString htmlEscape false (.element name {} []))).getD [] :=
  ⟨"BR", by decide +kernel⟩

/-- A document with markup in texts, in an attribute value and in a `title`. -/
def sampleDocument : HtmlNode :=
  .element "html" {} [
    .element "head" {} [.element "title" {} [.text "</title><b>"]],
    .element "body" {} [
      .text "<script>", .text "1 & 2", .comment "list",
      .element "a" ((OrderedMap.set {} "href" "/?a=\"b\"&c").set "title" "<'>") [],
      .element "br" {} []]]

example : IsElement sampleDocument ∧ Ok sampleDocument := by
  refine ⟨trivial, ?_⟩
  simp only [sampleDocument, Ok, AllOk, IsElement, Plain, ElementName, AttrName, Forbidden, TextOnly, Unescaped, Void]
  refine ⟨⟨⟨_, _, rfl, by decide⟩, by decide⟩, by decide, by simp [OrderedMap.getIter, OrderedMap.getIterLoop], by decide, fun h => absurd h (by decide), by decide, fun h => absurd h (by decide),
    ⟨⟨⟨_, _, rfl, by decide⟩, by decide⟩, by decide, by simp [OrderedMap.getIter, OrderedMap.getIterLoop], by decide, fun h => absurd h (by decide), by decide, fun h => absurd h (by decide),
      ⟨⟨⟨_, _, rfl, by decide⟩, by decide⟩, by decide, by simp [OrderedMap.getIter, OrderedMap.getIterLoop], by decide, by simp, fun h => absurd h (by decide), fun h => absurd h (by decide), by decide, trivial⟩, trivial⟩,
    ⟨⟨⟨_, _, rfl, by decide⟩, by decide⟩, by decide, by simp [OrderedMap.getIter, OrderedMap.getIterLoop], by decide, fun h => absurd h (by decide), by decide, fun h => absurd h (by decide),
      by decide, by decide, trivial,
      ⟨⟨⟨_, _, rfl, by decide⟩, by decide⟩, by decide, ?_, by decide, by simp, by decide, fun h => absurd h (by decide), trivial⟩,
      ⟨⟨⟨_, _, rfl, by decide⟩, by decide⟩, by decide, by simp [OrderedMap.getIter, OrderedMap.getIterLoop], by decide, by simp, by decide, fun _ => ⟨by decide, trivial⟩, trivial⟩, trivial⟩, trivial⟩
  intro a ha
  have : a = ("href", "/?a=\"b\"&c") ∨ a = ("title", "<'>") := by
    simpa [OrderedMap.getIter, OrderedMap.set, OrderedMap.getIterLoop] using ha
  rcases this with rfl | rfl <;> refine ⟨⟨?_, ?_⟩, ?_⟩ <;> decide

end Verif.Ssr

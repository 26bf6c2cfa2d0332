import Verif.Host.Cookies
import Mathlib.Tactic.Tauto
import Mathlib.Data.List.Nodup
/-!
# C52: proofs
-/
namespace Verif.Host.Cookies
open Verif.Codec
open Verif.Json (intToF64)

/-! ### Characters -/

/-- Visible ASCII without `;` and `=`. -/
def Vis (c : Char) : Prop := 33 ≤ c.toNat ∧ c.toNat ≤ 126 ∧ c ≠ ';' ∧ c ≠ '='

theorem alnum_nat {c : Char} (h : c.isAlphanum = true) :
    (48 ≤ c.toNat ∧ c.toNat ≤ 57) ∨ (65 ≤ c.toNat ∧ c.toNat ≤ 90) ∨ (97 ≤ c.toNat ∧ c.toNat ≤ 122) := by
  simp only [Char.isAlphanum, Char.isAlpha, Char.isUpper, Char.isLower, Char.isDigit, Bool.or_eq_true, Bool.and_eq_true,
    decide_eq_true_eq, UInt32.le_iff_toNat_le, ge_iff_le] at h
  have : c.val.toNat = c.toNat := rfl
  simp only [this] at h
  have e1 : ('A'.val).toNat = 65 := rfl
  have e2 : ('Z'.val).toNat = 90 := rfl
  simp at h
  omega

theorem alnum_vis {c : Char} (h : c.isAlphanum = true) : Vis c := by
  have := alnum_nat h
  refine ⟨by omega, by omega, ?_, ?_⟩ <;> rintro rfl <;> simp at this

theorem token_vis {name : List Char} (h : Token name) : ∀ c ∈ name, Vis c := by
  intro c hc
  rcases h.2 c hc with h | h
  · exact alnum_vis h
  · revert h
    have : ∀ c ∈ "!#$%&'*+-.^_`|~".toList, 33 ≤ c.toNat ∧ c.toNat ≤ 126 ∧ c ≠ ';' ∧ c ≠ '=' := by decide
    exact this c

theorem encode_vis {pf : Platform} (h : pf.Ok) (v : List Char) : ∀ c ∈ pf.encode v, Vis c := by
  intro c hc
  rcases h.encode_chars v c hc with h | h
  · exact alnum_vis h
  · revert h
    have : ∀ c ∈ "-_.!~*'()%".toList, 33 ≤ c.toNat ∧ c.toNat ≤ 126 ∧ c ≠ ';' ∧ c ≠ '=' := by decide
    exact this c

theorem encode_plain {pf : Platform} (h : pf.Ok) (v : List Char) : ∀ c ∈ pf.encode v, (33 ≤ c.toNat ∧ c.toNat ≤ 126) ∧ c ≠ ';' :=
  fun c hc => let x := encode_vis h v c hc; ⟨⟨x.1, x.2.1⟩, x.2.2.1⟩

theorem vis_space {c : Char} (h : Vis c) : jsSpace c = false := by
  obtain ⟨h1, h2, -, -⟩ := h
  simp only [jsSpace, List.contains_eq_mem, List.mem_cons, List.not_mem_nil, or_false, Bool.or_eq_false_iff, decide_eq_false_iff_not,
    Bool.and_eq_false_iff]
  omega

theorem vis_wsp {c : Char} (h1 : 33 ≤ c.toNat) : wsp c = false := by
  simp only [wsp, Bool.or_eq_false_iff, beq_eq_false_iff_ne]
  constructor <;> rintro rfl <;> simp at h1

theorem vis_control {c : Char} (h : 32 ≤ c.toNat ∧ c.toNat ≤ 126) : control c = false := by
  obtain ⟨h1, h2⟩ := h
  simp only [control, Bool.or_eq_false_iff, Bool.and_eq_false_iff, decide_eq_false_iff_not, beq_eq_false_iff_ne]
  omega

/-! ### Lists -/

theorem splitOn_ne (c : Char) (l : List Char) : splitOn c l ≠ [] := by
  induction l with
  | nil => simp [splitOn]
  | cons x xs ih =>
    simp only [splitOn]
    split
    · simp
    · split <;> simp

theorem splitOn_none {c : Char} {l : List Char} (h : c ∉ l) : splitOn c l = [l] := by
  induction l with
  | nil => rfl
  | cons x xs ih =>
    simp only [List.mem_cons, not_or] at h
    simp [splitOn, Ne.symm h.1, ih h.2]

theorem splitOn_append {c : Char} {a : List Char} (b : List Char) (h : c ∉ a) : splitOn c (a ++ c :: b) = a :: splitOn c b := by
  induction a with
  | nil => simp [splitOn]
  | cons x xs ih =>
    simp only [List.mem_cons, not_or] at h
    simp [splitOn, Ne.symm h.1, ih h.2]

theorem splitOn_length {c : Char} {l : List Char} (h : c ∈ l) : ∃ a b r, splitOn c l = a :: b :: r := by
  induction l with
  | nil => simp at h
  | cons x xs ih =>
    simp only [splitOn]
    by_cases hx : x = c
    · rw [if_pos hx]
      rcases hs : splitOn c xs with _ | ⟨a, r⟩
      · exact absurd hs (splitOn_ne c xs)
      · exact ⟨_, _, _, rfl⟩
    · rw [if_neg hx]
      simp only [List.mem_cons] at h
      obtain ⟨a, b, r, h⟩ := ih (h.resolve_left (fun e => hx e.symm))
      rw [h]
      exact ⟨_, _, _, rfl⟩

theorem before_append {c : Char} {a : List Char} (b : List Char) (h : c ∉ a) : before c (a ++ c :: b) = a := by
  induction a with
  | nil => simp [before]
  | cons x xs ih =>
    simp only [List.mem_cons, not_or] at h
    simp only [before] at ih
    simp [before, Ne.symm h.1, ih h.2]

theorem after_append {c : Char} {a : List Char} (b : List Char) (h : c ∉ a) : after c (a ++ c :: b) = b := by
  induction a with
  | nil => simp [after]
  | cons x xs ih =>
    simp only [List.mem_cons, not_or] at h
    simp only [after] at ih
    simp [after, Ne.symm h.1, ih h.2]

/-- Trimmed at the end. -/
def rtrim (space : Char → Bool) (l : List Char) : List Char := (l.reverse.dropWhile space).reverse

theorem dropWhile_head {p : Char → Bool} {l : List Char} (h : ∀ c, l.head? = some c → p c = false) : l.dropWhile p = l := by
  cases l with
  | nil => rfl
  | cons x xs => simp [h x rfl]

theorem trim_id {p : Char → Bool} {l : List Char} (h : ∀ c, l.head? = some c → p c = false) (h' : ∀ c, l.getLast? = some c → p c = false) :
    trim p l = l := by
  unfold trim
  rw [dropWhile_head h, dropWhile_head (by simpa using h'), List.reverse_reverse]

theorem trim_id' {p : Char → Bool} {l : List Char} (h : ∀ c ∈ l, p c = false) : trim p l = l :=
  trim_id (fun c hc => h c (List.mem_of_head? hc)) (fun c hc => h c (List.mem_of_getLast? hc))

theorem dropWhile_append {p : Char → Bool} (a : List Char) (x : Char) (b : List Char) (h : p x = false) :
    (a ++ x :: b).dropWhile p = a.dropWhile p ++ x :: b := by
  induction a with
  | nil => simp [h]
  | cons y ys ih => simp only [List.cons_append, List.dropWhile_cons]; split <;> simp_all

theorem trim_pair {p : Char → Bool} {n v : List Char} (h0 : n ≠ []) (h : ∀ c ∈ n, p c = false) (he : p '=' = false) :
    trim p (n ++ '=' :: v) = n ++ '=' :: rtrim p v := by
  unfold trim rtrim
  rw [dropWhile_head (l := n ++ '=' :: v)]
  · rw [List.reverse_append, List.reverse_cons, List.append_assoc, List.singleton_append, dropWhile_append _ _ _ he]
    simp
  · intro c hc
    cases n with
    | nil => exact absurd rfl h0
    | cons y ys => simp at hc; subst hc; exact h _ (by simp)

/-! ### Reading -/

/-- The first cookie with the name that can be read. -/
def readable (cname : List Char) (c : Cookie) : Bool := c.name == cname && !(rtrim jsSpace c.value).contains '='

theorem piece {pf : Platform} {cname : List Char} {c : Cookie} (hc : Token c.name) (sp : List Char) (hsp : sp = [] ∨ sp = [' ']) (rest : List (List Char)) :
    getLoop pf cname ((sp ++ c.text) :: rest) =
      if readable cname c then pf.decode (rtrim jsSpace c.value) else getLoop pf cname rest := by
  have hv := token_vis hc
  have htext : c.text = c.name ++ '=' :: c.value := by simp [Cookie.text, hc.1]
  have hne : sp ++ c.text ≠ [] := by rw [htext]; simp
  have htrim : trim jsSpace (sp ++ c.text) = c.name ++ '=' :: rtrim jsSpace c.value := by
    rw [← trim_pair hc.1 (fun x hx => vis_space (hv x hx)) (by decide), htext]
    rcases hsp with rfl | rfl
    · rfl
    · have : jsSpace ' ' = true := by decide
      simp [trim, this]
  have heq : '=' ∉ c.name := fun h => (hv _ h).2.2.2 rfl
  rw [getLoop, if_neg hne, htrim, splitOn_append _ heq]
  by_cases h : '=' ∈ rtrim jsSpace c.value
  · obtain ⟨a, b, r, hs⟩ := splitOn_length h
    simp [hs, readable, h]
  · rw [splitOn_none h]
    simp [readable, h]

theorem loop_join {pf : Platform} {cname : List Char} (cs : List Cookie) (h : ∀ c ∈ cs, Token c.name ∧ ';' ∉ c.value) (sp : List Char)
    (hsp : sp = [] ∨ sp = [' ']) (hcs : cs ≠ []) :
    getLoop pf cname (splitOn ';' (sp ++ join (cs.map Cookie.text))) =
      (cs.find? (readable cname)).elim (some []) (fun c => pf.decode (rtrim jsSpace c.value)) := by
  induction cs generalizing sp with
  | nil => exact absurd rfl hcs
  | cons c cs ih =>
    have hc := h c (by simp)
    have htext : ';' ∉ sp ++ c.text := by
      have : c.text = c.name ++ '=' :: c.value := by simp [Cookie.text, hc.1.1]
      rw [this]
      have h1 : ';' ∉ c.name := fun h => (token_vis hc.1 _ h).2.2.1 rfl
      rcases hsp with rfl | rfl <;> simp [h1, hc.2]
    cases cs with
    | nil =>
      simp only [List.map_cons, List.map_nil, join]
      rw [splitOn_none htext, piece hc.1 sp hsp]
      by_cases hr : readable cname c <;> simp [hr, getLoop]
    | cons d ds =>
      have : join (List.map Cookie.text (c :: d :: ds)) = c.text ++ ';' :: ([' '] ++ join ((d :: ds).map Cookie.text)) := rfl
      rw [this, ← List.append_assoc, splitOn_append _ htext, piece hc.1 sp hsp, ih (fun x hx => h x (by simp [hx])) [' '] (.inr rfl) (by simp)]
      by_cases hr : readable cname c <;> simp [hr]

theorem tsGet_eq {pf : Platform} {s : Session} (h : JarOk s.jar) (cname : List Char) :
    tsGet pf s cname = ((s.jar.filter (Cookie.live s.now)).find? (readable cname)).elim (some []) (fun c => pf.decode (rtrim jsSpace c.value)) := by
  unfold tsGet documentCookie
  by_cases he : s.jar.filter (Cookie.live s.now) = []
  · rw [he]; simp [join, splitOn, getLoop]
  · have := loop_join (pf := pf) (cname := cname) (s.jar.filter (Cookie.live s.now)) (fun c hc => h.2 c (List.mem_filter.1 hc).1) [] (.inl rfl) he
    simpa using this

/-! ### Storing -/

theorem store_names (c : Cookie) (jar : List Cookie) : ∀ n, n ∈ (store c jar).map (·.name) → n = c.name ∨ n ∈ jar.map (·.name) := by
  induction jar with
  | nil => simp [store]
  | cons d ds ih =>
    intro n hn
    simp only [store] at hn
    split at hn
    · simp at hn ⊢; tauto
    · simp only [List.map_cons, List.mem_cons] at hn ⊢
      rcases hn with h | h
      · tauto
      · rcases ih n h with h | h <;> tauto

theorem store_mem (c : Cookie) (jar : List Cookie) : ∀ d ∈ store c jar, d = c ∨ d ∈ jar := by
  induction jar with
  | nil => simp [store]
  | cons d ds ih =>
    intro x hx
    simp only [store] at hx
    split at hx
    · simp at hx ⊢; tauto
    · simp only [List.mem_cons] at hx ⊢
      rcases hx with h | h
      · tauto
      · rcases ih x h with h | h <;> tauto

theorem store_ok {c : Cookie} {jar : List Cookie} (h : JarOk jar) (hc : Token c.name ∧ ';' ∉ c.value) : JarOk (store c jar) := by
  refine ⟨?_, fun d hd => (store_mem c jar d hd).elim (fun e => e ▸ hc) (h.2 d)⟩
  have h1 := h.1
  clear h
  induction jar with
  | nil => simp [store]
  | cons d ds ih =>
    simp only [List.map_cons, List.nodup_cons] at h1
    simp only [store]
    split
    · rename_i e
      simp only [List.map_cons, List.nodup_cons]
      exact ⟨e ▸ h1.1, h1.2⟩
    · rename_i e
      simp only [List.map_cons, List.nodup_cons]
      exact ⟨fun hm => (store_names c ds _ hm).elim e h1.1, ih h1.2⟩

theorem filter_ok {jar : List Cookie} (h : JarOk jar) (p : Cookie → Bool) : JarOk (jar.filter p) :=
  ⟨h.1.sublist (List.filter_sublist.map _), fun c hc => h.2 c (List.mem_filter.1 hc).1⟩

/-- Other names find what they found. -/
theorem find_store_ne {c : Cookie} {jar : List Cookie} {cname : List Char} (h : c.name ≠ cname) (p : Cookie → Bool) :
    ((store c jar).filter p).find? (readable cname) = (jar.filter p).find? (readable cname) := by
  have hr : ∀ d : Cookie, d.name = c.name → readable cname d = false := by
    intro d hd; simp [readable, hd, h]
  induction jar with
  | nil => simp only [store, List.filter]; split <;> simp [hr c rfl]
  | cons d ds ih =>
    simp only [store]
    split
    · rename_i e
      simp only [List.filter_cons]
      split <;> split <;> simp [hr c rfl, hr d e]
    · simp only [List.filter_cons]
      split <;> simp [List.find?_cons, ih]

theorem find_filter_ne {jar : List Cookie} {cname name : List Char} (h : name ≠ cname) (p : Cookie → Bool) :
    ((jar.filter (·.name ≠ name)).filter p).find? (readable cname) = (jar.filter p).find? (readable cname) := by
  simp only [List.find?_filter]
  congr 1
  funext d
  by_cases hd : d.name = name
  · have : readable cname d = false := by simp [readable, hd, h]
    simp [this]
  · simp [hd]

/-- The name finds the cookie, if it has not expired. -/
theorem find_store_eq {c : Cookie} {jar : List Cookie} (h : (jar.map (·.name)).Nodup) (hc : readable c.name c = true) (p : Cookie → Bool) :
    ((store c jar).filter p).find? (readable c.name) = if p c then some c else none := by
  induction jar with
  | nil => simp only [store, List.filter]; split <;> simp_all
  | cons d ds ih =>
    simp only [List.map_cons, List.nodup_cons] at h
    simp only [store]
    split
    · rename_i e
      have : (ds.filter p).find? (readable c.name) = none := by
        rw [List.find?_eq_none]
        intro x hx hr
        simp only [readable, Bool.and_eq_true, beq_iff_eq] at hr
        exact h.1 (List.mem_map.2 ⟨x, (List.mem_filter.1 hx).1, by rw [hr.1, e]⟩)
      simp only [List.filter_cons]
      split <;> simp [hc, this]
    · rename_i e
      have : readable c.name d = false := by simp [readable, e]
      simp only [List.filter_cons]
      split <;> simp [this, ih h.2]

theorem find_filter_eq {jar : List Cookie} {name : List Char} (p : Cookie → Bool) :
    ((jar.filter (·.name ≠ name)).filter p).find? (readable name) = none := by
  rw [List.find?_eq_none]
  intro x hx hr
  simp only [readable, Bool.and_eq_true, beq_iff_eq] at hr
  have := (List.mem_filter.1 (List.mem_filter.1 hx).1).2
  simp [hr.1] at this

/-- The cookie that the browser makes of the text of cookies.ts:56. -/
theorem assign_text {pf : Platform} (now : Int) (jar : List Cookie) {n v d : List Char} (hn : Token n) (hr : ¬ Reserved n)
    (hv : ∀ c ∈ v, (33 ≤ c.toNat ∧ c.toNat ≤ 126) ∧ c ≠ ';') (hd : ∀ c ∈ d, (32 ≤ c.toNat ∧ c.toNat ≤ 126) ∧ c ≠ ';') (hdt : trim wsp d = d)
    (hl : (strBytes (String.ofList (n ++ v))).length ≤ 4096) :
    assign pf now jar (n ++ '=' :: (v ++ ';' :: ("expires=".toList ++ (d ++ ";path=/;samesite=strict\"".toList)))) =
      (pf.date d).elim (store ⟨n, v, none⟩ jar) (fun t => if min t (now + pf.keep) ≤ now then jar.filter (·.name ≠ n)
        else store ⟨n, v, some (min t (now + pf.keep))⟩ jar) := by
  have hnv := token_vis hn
  have hnc : ';' ∉ n ++ '=' :: v := by
    simp only [List.mem_append, List.mem_cons, not_or]
    exact ⟨fun h => (hnv _ h).2.2.1 rfl, by decide, fun h => (hv _ h).2 rfl⟩
  have hne : '=' ∉ n := fun h => (hnv _ h).2.2.2 rfl
  have htext : n ++ '=' :: (v ++ ';' :: ("expires=".toList ++ (d ++ ";path=/;samesite=strict\"".toList))) =
      (n ++ '=' :: v) ++ ';' :: ("expires=".toList ++ (d ++ ";path=/;samesite=strict\"".toList)) := by simp
  have hany : (n ++ '=' :: (v ++ ';' :: ("expires=".toList ++ (d ++ ";path=/;samesite=strict\"".toList)))).any control = false := by
    simp only [List.any_append, List.any_cons, Bool.or_eq_false_iff]
    refine ⟨?_, by decide, ?_, by decide, by decide, ?_, by decide⟩
    · rw [List.any_eq_false]; intro c hc; have := hnv c hc; simp [vis_control ⟨by have := this.1; omega, this.2.1⟩]
    · rw [List.any_eq_false]; intro c hc; have := hv c hc; simp [vis_control ⟨by have := this.1.1; omega, this.1.2⟩]
    · rw [List.any_eq_false]; intro c hc; simp [vis_control (hd c hc).1]
  have hdc : ';' ∉ "expires=".toList ++ d := by
    simp only [List.mem_append, not_or]
    exact ⟨by decide, fun h => (hd _ h).2 rfl⟩
  have hattr : splitOn ';' ("expires=".toList ++ (d ++ ";path=/;samesite=strict\"".toList)) =
      ["expires=".toList ++ d, "path=/".toList, "samesite=strict\"".toList] := by
    have : "expires=".toList ++ (d ++ ";path=/;samesite=strict\"".toList) =
        ("expires=".toList ++ d) ++ ';' :: "path=/;samesite=strict\"".toList := by simp
    rw [this, splitOn_append _ hdc]
    congr 1
  have hexp : expiresOf pf ["expires=".toList ++ d, "path=/".toList, "samesite=strict\"".toList] = pf.date d := by
    have e : "expires=".toList ++ d = "expires".toList ++ '=' :: d := by simp
    have e0 : '=' ∉ "expires".toList := by decide
    have e1 : (trim wsp "expires".toList).map Char.toLower = "expires".toList := by decide
    have e2 : ¬ (trim wsp (before '=' "path=/".toList)).map Char.toLower = "expires".toList := by decide
    have e3 : ¬ (trim wsp (before '=' "samesite=strict\"".toList)).map Char.toLower = "expires".toList := by decide
    unfold expiresOf
    simp only [List.filterMap_cons, List.filterMap_nil, if_neg e2, if_neg e3]
    rw [e, before_append _ e0, after_append _ e0, if_pos e1, hdt]
    cases pf.date d <;> rfl
  unfold assign
  rw [hany, htext]
  simp only [Bool.false_eq_true, if_false]
  rw [before_append _ hnc, after_append _ hnc, hattr, hexp, before_append _ hne, after_append _ hne]
  have hc : (n ++ '=' :: v).contains '=' = true := by simp
  rw [if_pos hc, if_pos hc, trim_id' (fun c hc => vis_wsp (hnv c hc).1), trim_id' (fun c hc => vis_wsp (hv c hc).1.1)]
  have hsz : ¬ ((n = [] ∧ v = []) ∨ 4096 < (strBytes (String.ofList (n ++ v))).length) := by
    rintro (⟨h, -⟩ | h)
    · exact hn.1 h
    · omega
  rw [if_neg hsz]
  have hres : ("__secure-".toList.isPrefixOf (n.map Char.toLower) || "__host-".toList.isPrefixOf (n.map Char.toLower)) = false := by
    rw [Bool.or_eq_false_iff]
    constructor <;> rw [Bool.eq_false_iff] <;> intro h
    · exact hr (.inl (List.isPrefixOf_iff_prefix.1 h))
    · exact hr (.inr (List.isPrefixOf_iff_prefix.1 h))
  rw [hres]
  cases pf.date d <;> rfl

theorem utc_ok {pf : Platform} (h : pf.Ok) {t : Int} (h0 : 0 ≤ t) (h1 : t ≤ 8640000000000000) :
    (∀ c ∈ pf.utc t, (32 ≤ c.toNat ∧ c.toNat ≤ 126) ∧ c ≠ ';') ∧ trim wsp (pf.utc t) = pf.utc t := by
  have hall : ∀ c ∈ pf.utc t, ((32 ≤ c.toNat ∧ c.toNat ≤ 126) ∧ c ≠ ';') := by
    intro c hc
    rcases h.utc_chars t h0 h1 c hc with h | h
    · have := alnum_vis h; exact ⟨⟨by have := this.1; omega, this.2.1⟩, this.2.2.1⟩
    · revert h
      have : ∀ c ∈ " ,:".toList, (32 ≤ c.toNat ∧ c.toNat ≤ 126) ∧ c ≠ ';' := by decide
      exact this c
  refine ⟨hall, trim_id ?_ ?_⟩
  · intro c hc
    have h1' := hall c (List.mem_of_head? hc)
    have h2 := h.utc_first t h0 h1
    simp only [wsp, Bool.or_eq_false_iff, beq_eq_false_iff_ne]
    exact ⟨fun e => h2 (e ▸ hc), fun e => by subst e; simp at h1'⟩
  · intro c hc
    have h1' := hall c (List.mem_of_getLast? hc)
    have h2 := h.utc_last t h0 h1
    simp only [wsp, Bool.or_eq_false_iff, beq_eq_false_iff_ne]
    exact ⟨fun e => h2 (e ▸ hc), fun e => by subst e; simp at h1'⟩

theorem tsSet_eq {pf : Platform} (h : pf.Ok) {s : Session} (h0 : 0 ≤ s.now) {n : String} {v : List Char} {e : UInt64}
    (hs : Storable pf s.now n v e) :
    (tsSet pf s n.toList v e.toNat).jar =
      if lasts pf s.now e ≤ s.now then s.jar.filter (·.name ≠ n.toList)
      else store ⟨n.toList, pf.encode v, some (lasts pf s.now e)⟩ s.jar := by
  obtain ⟨h1, h2, h3, h4⟩ := hs
  have ht0 : 0 ≤ s.now + (e.toNat : Int) * 1000 := by omega
  have hu := utc_ok h ht0 (by omega)
  simp only [tsSet, dateText, if_pos (show s.now + (e.toNat : Int) * 1000 ≤ 8640000000000000 by omega)]
  rw [assign_text s.now s.jar h1 h2 (encode_plain h v) hu.1 hu.2 h3, h.date_utc _ ht0 h4]
  rfl

/-! ### Calls -/

mutual
theorem denotes_ofJson : ∀ j : JsJson, DenotesJ j (ofJson j)
  | .tru => .tru
  | .fls => .fls
  | .null => .null
  | .str s => .str s
  | .num b => .num b
  | .list l => .list l _ (denotesL_ofJson l)
  | .obj l => .obj l _ (denotesO_ofJson l)
theorem denotesL_ofJson : ∀ l : List JsJson, DenotesJL l (ofJsonL l)
  | [] => .nil
  | x :: xs => .cons x xs _ _ (denotes_ofJson x) (denotesL_ofJson xs)
theorem denotesO_ofJson : ∀ l : List (String × JsJson), DenotesJO l (ofJsonO l)
  | [] => .nil
  | (k, x) :: xs => .cons k x xs _ _ (denotes_ofJson x) (denotesO_ofJson xs)
end

theorem builds_js (pf : Platform) (s : Session) (js : List Js) : Builds (cookieWorld pf) s js (js.map Val.js) s := by
  induction js with
  | nil => exact .nil s
  | cons j js ih => exact .cons (o := cookieWorld pf) s s j js _ ih

theorem chain_call (pf : Platform) (s : Session) (f : String) (params : List JsValue) (js : List Js)
    (hd : DenotesL params js) (hw : JsValue.WFL params) (hs : Ts.JsSafeL params) (hf : ¬ Ts.bom <+: strBytes f)
    (hl : f.utf8ByteSize + JsValue.wireLenL params < 2 ^ 32 - 100) :
    (build [.api, .get "cookie", .call f params]).wireLen < 2 ^ 32 ∧ (build [.api, .get "cookie", .call f params]).WF ∧
    Ts.JsSafe (build [.api, .get "cookie", .call f params]) ∧
    Chain (cookieWorld pf) [.api, .get "cookie", .call f params] s (cookieWorld pf).null
      ((cookieWorld pf).call s .cookie f (js.map Val.js)).1 ((cookieWorld pf).call s .cookie f (js.map Val.js)).2 := by
  refine ⟨?_, ?_, ?_, ?_⟩
  · have e1 : "api".utf8ByteSize = 3 := by decide
    have e2 : "get".utf8ByteSize = 3 := by decide
    have e3 : "cookie".utf8ByteSize = 6 := by decide
    have e4 : "call".utf8ByteSize = 4 := by decide
    simp only [build, Access.item, List.map, JsValue.wireLen, JsValue.wireLenL, e1, e2, e3, e4]
    omega
  · simp [build, Access.item, JsValue.WF, JsValue.WFL, hw]
  · have e1 : ¬ Ts.bom <+: strBytes "api" := by decide
    have e2 : ¬ Ts.bom <+: strBytes "get" := by decide
    have e3 : ¬ Ts.bom <+: strBytes "cookie" := by decide
    have e4 : ¬ Ts.bom <+: strBytes "call" := by decide
    simp only [build, Access.item, List.map, Ts.JsSafe, Ts.JsSafeL]
    exact ⟨⟨e1, trivial⟩, ⟨e2, e3, trivial⟩, ⟨e4, hf, hs⟩, trivial⟩
  · have hcall := Does.call (o := cookieWorld pf) f params js _ s s .cookie hd (builds_js pf s js)
    refine .cons _ _ s s _ _ .api _ (.api s _) (.cons _ _ s s _ _ .cookie _ (.get (o := cookieWorld pf) "cookie" s .api) ?_)
    cases hc : ((cookieWorld pf).call s .cookie f (js.map Val.js)).1 with
    | none => rw [hc] at hcall; exact .fails _ _ _ _ _ hcall
    | some r => rw [hc] at hcall; exact .cons _ _ _ _ _ _ r _ hcall (.nil _ _)

theorem fetch_call (pf : Platform) (lossy : List UInt8 → String) (s : Session) (f : String) (params : List JsValue) (js : List Js)
    (hd : DenotesL params js) (hw : JsValue.WFL params) (hs : Ts.JsSafeL params) (hf : ¬ Ts.bom <+: strBytes f)
    (hl : f.utf8ByteSize + JsValue.wireLenL params < 2 ^ 32 - 100) :
    (((cookieWorld pf).call s .cookie f (js.map Val.js)).1 = none →
      fetchCookie pf lossy true s f params = (.value .undefined, ((cookieWorld pf).call s .cookie f (js.map Val.js)).2)) ∧
    ∀ r v, ((cookieWorld pf).call s .cookie f (js.map Val.js)).1 = some r →
      Arrives ((cookieWorld pf).read ((cookieWorld pf).call s .cookie f (js.map Val.js)).2 r) v → v.WF → Ts.JsSafe v →
      v.wireLen + 1 < 2 ^ 32 →
      fetchCookie pf lossy true s f params = (.value v, ((cookieWorld pf).call s .cookie f (js.map Val.js)).2) := by
  obtain ⟨hlen, hwf, hsafe, hchain⟩ := chain_call pf s f params js hd hw hs hf hl
  obtain ⟨hsnap, -⟩ := toSnapshot_eq _ hlen
  have := C51_chain_partial (cookieWorld pf) lossy [.api, .get "cookie", .call f params] (by simp [Access.Plain]) hwf hsafe hlen
    (encV (build [.api, .get "cookie", .call f params])) 0 _ ⟨_, [], hsnap, by simp, Nat.zero_le _, rfl⟩ s _ _ hchain
  simp only [fetchCookie, if_true, hsnap]
  exact this

def Val.data : Val → Js
  | .js j => j
  | _ => .other

theorem fetch_eq (pf : Platform) (lossy : List UInt8 → String) (s s' : Session) (f : String) (params : List JsValue) (js : List Js)
    (hd : DenotesL params js) (hw : JsValue.WFL params) (hs : Ts.JsSafeL params) (hf : ¬ Ts.bom <+: strBytes f)
    (hl : f.utf8ByteSize + JsValue.wireLenL params < 2 ^ 32 - 100)
    (hc : ((cookieWorld pf).call s .cookie f (js.map Val.js)).1 = ((cookieWorld pf).call s' .cookie f (js.map Val.js)).1) :
    (fetchCookie pf lossy true s f params).1 = (fetchCookie pf lossy true s' f params).1 := by
  have key : ∀ s, (fetchCookie pf lossy true s f params).1 =
      ((cookieWorld pf).call s .cookie f (js.map Val.js)).1.elim (.value .undefined)
        (fun r => (toJsValue (Val.data r)).elim .exception transfer) := by
    intro s
    obtain ⟨hlen, hwf, hsafe, hchain⟩ := chain_call pf s f params js hd hw hs hf hl
    obtain ⟨hsnap, -⟩ := toSnapshot_eq _ hlen
    have hpath := path_chain hchain (by simp [Access.Plain]) (wf_items hwf) (safe_items hsafe) []
    simp only [List.append_nil] at hpath
    have hdec := sent_decode hwf hsafe hlen (mem := encV (build [.api, .get "cookie", .call f params])) (ptr := 0)
      ⟨_, [], hsnap, by simp, Nat.zero_le _, rfl⟩ lossy
    simp only [fetchCookie, if_true, hsnap, domAccess, hdec, hpath]
    cases ((cookieWorld pf).call s .cookie f (js.map Val.js)).1 with
    | none => rfl
    | some r =>
      simp only [Option.elim, path]
      have : (cookieWorld pf).read ((cookieWorld pf).call s .cookie f (js.map Val.js)).2 r = Val.data r := rfl
      rw [this]
      generalize toJsValue (Val.data r) = x
      cases x <;> rfl
  rw [key s, key s', hc]

theorem token_bom {n : String} (h : Token n.toList) : ¬ Ts.bom <+: strBytes n := by
  obtain ⟨l, rfl⟩ : ∃ l, n = String.ofList l := ⟨n.toList, by simp⟩
  rw [String.toList_ofList] at h
  cases l with
  | nil => exact absurd rfl h.1
  | cons c cs =>
    have hc := token_vis h c (by simp)
    have h1 : c.utf8Size = 1 := by
      rw [Char.utf8Size_eq_one_iff, UInt32.le_iff_toNat_le]
      have := hc.2.1
      simp only [Char.toNat] at this
      have e : (127 : UInt32).toNat = 127 := rfl
      omega
    rintro ⟨t, ht⟩
    simp only [strBytes, String.toByteArray_ofList, List.utf8Encode, List.flatMap_cons, String.utf8EncodeChar_eq_singleton h1, Ts.bom] at ht
    simp at ht
    have h2 := congrArg UInt8.toNat ht.1
    have := hc.2.1
    simp only [Char.toNat] at this
    have e : (239 : UInt8).toNat = 239 := rfl
    have e' : c.toUInt8.toNat = c.val.toNat % 256 := UInt32.toNat_toUInt8 _
    rw [e, e'] at h2
    omega

/-! ### Histories -/

/-- The text that a write stores. -/
def textOf (pf : Platform) : Op → List Char
  | .set _ v _ => v.toList
  | .setJson _ j _ => pf.stringify (ofJson j)
  | .wait _ => []

/-- What is known of a write of the history. -/
def WriteOk : Op → Prop
  | .set _ v _ => v.utf8ByteSize < 2 ^ 30 ∧ ¬ Ts.bom <+: strBytes v
  | .setJson _ j _ => j.WF ∧ Ts.JsSafeJ j ∧ j.wireLen < 2 ^ 30
  | .wait _ => False

/-- What the jar has for a name, now and later; `jar0` is the jar at the beginning. -/
def Inv (pf : Platform) (jar0 : List Cookie) (name : String) (s : Session) (m : Option (Op × Int)) : Prop :=
  JarOk s.jar ∧ 0 ≤ s.now ∧ (∀ op u, m = some (op, u) → WriteOk op) ∧
  ∀ t, s.now ≤ t → (s.jar.filter (Cookie.live t)).find? (readable name.toList) =
    m.elim ((jar0.filter (Cookie.live t)).find? (readable name.toList))
      (fun x => if t < x.2 then some ⟨name.toList, pf.encode (textOf pf x.1), some x.2⟩ else none)

theorem toList_inj {a b : String} (h : a.toList = b.toList) : a = b := by
  rw [← String.ofList_toList (s := a), h, String.ofList_toList]

theorem enc_readable {pf : Platform} (h : pf.Ok) (n v : List Char) (u : Option Int) : readable n ⟨n, pf.encode v, u⟩ = true := by
  have e : rtrim jsSpace (pf.encode v) = pf.encode v := by
    unfold rtrim
    rw [dropWhile_head, List.reverse_reverse]
    intro c hc
    exact vis_space (encode_vis h v c (List.mem_of_getLast? (by simpa using hc)))
  have : '=' ∉ pf.encode v := fun hm => (encode_vis h v _ hm).2.2.2 rfl
  simp [readable, e, this]

theorem enc_rtrim {pf : Platform} (h : pf.Ok) (v : List Char) : rtrim jsSpace (pf.encode v) = pf.encode v := by
  unfold rtrim
  rw [dropWhile_head, List.reverse_reverse]
  intro c hc
  exact vis_space (encode_vis h v c (List.mem_of_getLast? (by simpa using hc)))

theorem inv_write {pf : Platform} (h : pf.Ok) {jar0 : List Cookie} {name n : String} {s : Session} {m : Option (Op × Int)}
    (hi : Inv pf jar0 name s m) (op : Op) (hop : WriteOk op) (e : UInt64) (hs : Storable pf s.now n (textOf pf op) e) :
    Inv pf jar0 name (tsSet pf s n.toList (textOf pf op) e.toNat) (if n = name then some (op, lasts pf s.now e) else m) := by
  obtain ⟨hj, h0, hm, hf⟩ := hi
  have hjar := tsSet_eq h h0 hs
  have hvc : ';' ∉ pf.encode (textOf pf op) := fun hmem => (encode_vis h _ _ hmem).2.2.1 rfl
  refine ⟨?_, h0, ?_, ?_⟩
  · rw [hjar]
    split
    · exact filter_ok hj _
    · exact store_ok hj ⟨hs.1, hvc⟩
  · intro op' u hu
    split at hu
    · cases hu; exact hop
    · exact hm op' u hu
  · intro t ht
    have ht' : s.now ≤ t := ht
    rw [hjar]
    by_cases hn : n = name
    · subst hn
      rw [if_pos rfl]
      simp only [Option.elim]
      split
      · rw [find_filter_eq, if_neg (by omega)]
      · have := find_store_eq (c := ⟨n.toList, pf.encode (textOf pf op), some (lasts pf s.now e)⟩) hj.1 (enc_readable h _ _ _) (Cookie.live t)
        rw [this]
        simp [Cookie.live]
    · have hne : n.toList ≠ name.toList := fun e => hn (toList_inj e)
      rw [if_neg hn, ← hf t ht']
      split
      · exact find_filter_ne hne _
      · exact find_store_ne (c := ⟨n.toList, _, _⟩) hne _

theorem cookieSet_eq' {pf : Platform} (lossy : List UInt8 → String) {s : Session} {n v : String} (e : UInt64) (hb' : ¬ Ts.bom <+: strBytes n)
    (hl : n.utf8ByteSize < 2 ^ 30) (hv : v.utf8ByteSize < 2 ^ 30) (hb : ¬ Ts.bom <+: strBytes v) :
    cookieSet pf lossy true s n v e = tsSet pf s n.toList v.toList e.toNat := by
  have := (fetch_call pf lossy s "set" [.str n, .str v, .u64 e] [.str n, .str v, .bigint e.toNat]
    (.cons _ _ _ _ (.str n) (.cons _ _ _ _ (.str v) (.cons _ _ _ _ (.u64 e) .nil))) (by simp [JsValue.WFL, JsValue.WF])
    ⟨hb', hb, trivial, trivial⟩ (by decide)
    (by
      have e1 : "set".utf8ByteSize = 3 := by decide
      simp only [JsValue.wireLenL, JsValue.wireLen, e1]; omega)).2 (.js .undefined) .undefined rfl .undefined
      (by simp [JsValue.WF]) (by simp [Ts.JsSafe]) (by simp [JsValue.wireLen])
  simp only [cookieSet, if_true, this]
  rfl

theorem cookieSet_eq {pf : Platform} (lossy : List UInt8 → String) {s : Session} {n v : String} (e : UInt64) (hn : Token n.toList)
    (hl : n.utf8ByteSize < 2 ^ 30) (hv : v.utf8ByteSize < 2 ^ 30) (hb : ¬ Ts.bom <+: strBytes v) :
    cookieSet pf lossy true s n v e = tsSet pf s n.toList v.toList e.toNat :=
  cookieSet_eq' lossy e (token_bom hn) hl hv hb

theorem cookieSetJson_eq {pf : Platform} (lossy : List UInt8 → String) {s : Session} {n : String} {j : JsJson} (e : UInt64) (hn : Token n.toList)
    (hl : n.utf8ByteSize < 2 ^ 30) (hw : j.WF) (hs : Ts.JsSafeJ j) (hv : j.wireLen < 2 ^ 30) :
    cookieSetJson pf lossy true s n j e = tsSet pf s n.toList (pf.stringify (ofJson j)) e.toNat := by
  have hb' := token_bom hn
  have := (fetch_call pf lossy s "set_json" [.str n, .json j, .u64 e] [.str n, ofJson j, .bigint e.toNat]
    (.cons _ _ _ _ (.str n) (.cons _ _ _ _ (.json j _ (denotes_ofJson j)) (.cons _ _ _ _ (.u64 e) .nil)))
    (by simp [JsValue.WFL, JsValue.WF, hw]) ⟨hb', hs, trivial, trivial⟩ (by decide)
    (by
      have e1 : "set_json".utf8ByteSize = 8 := by decide
      simp only [JsValue.wireLenL, JsValue.wireLen, e1]; omega)).2 (.js .undefined) .undefined rfl .undefined
      (by simp [JsValue.WF]) (by simp [Ts.JsSafe]) (by simp [JsValue.wireLen])
  simp only [cookieSetJson, this]
  rfl

theorem name_size {pf : Platform} {now : Int} {n : String} {v : List Char} {e : UInt64} (h : Storable pf now n v e) : n.utf8ByteSize < 2 ^ 30 := by
  have h3 := h.2.2.1
  rw [strBytes_length, String.ofList_append, String.utf8ByteSize_append, String.ofList_toList] at h3
  omega

theorem inv_run {pf : Platform} (h : pf.Ok) (lossy : List UInt8 → String) {jar0 : List Cookie} {name : String} (ops : List Op) :
    ∀ {s : Session} {m : Option (Op × Int)}, Inv pf jar0 name s m → OpsOk pf s.now ops →
      Inv pf jar0 name (runOps pf lossy ops s) (lastWrite pf name s.now ops m) := by
  induction ops with
  | nil => intro s m hi _; exact hi
  | cons op ops ih =>
    intro s m hi ho
    cases op with
    | set n v e =>
      obtain ⟨⟨h1, h2, h3⟩, ho⟩ := ho
      have := inv_write h hi (.set n v e) ⟨h2, h3⟩ e h1
      simp only [runOps, lastWrite]
      rw [cookieSet_eq lossy e h1.1 (name_size h1) h2 h3]
      exact ih this ho
    | setJson n j e =>
      obtain ⟨⟨h1, h2, h3, h4⟩, ho⟩ := ho
      have := inv_write h hi (.setJson n j e) ⟨h2, h3, h4⟩ e h1
      simp only [runOps, lastWrite]
      rw [cookieSetJson_eq lossy e h1.1 (name_size h1) h2 h3 h4]
      exact ih this ho
    | wait ms =>
      obtain ⟨a, b, c, d⟩ := hi
      refine ih (s := { s with now := s.now + ms }) (m := m) ⟨a, ?_, c, fun t ht => d t ?_⟩ ho
      · show 0 ≤ s.now + (ms : Int); omega
      · have : s.now + (ms : Int) ≤ t := ht
        omega

theorem run_now {pf : Platform} (lossy : List UInt8 → String) (ops : List Op) :
    ∀ {s : Session}, OpsOk pf s.now ops → (runOps pf lossy ops s).now = s.now + elapsed ops := by
  induction ops with
  | nil => intro s _; simp [runOps, elapsed]
  | cons op ops ih =>
    intro s ho
    cases op with
    | set n v e =>
      obtain ⟨⟨h1, h2, h3⟩, ho⟩ := ho
      simp only [runOps, elapsed]
      rw [cookieSet_eq lossy e h1.1 (name_size h1) h2 h3]
      exact ih (s := tsSet pf s n.toList v.toList e.toNat) ho
    | setJson n j e =>
      obtain ⟨⟨h1, h2, h3, h4⟩, ho⟩ := ho
      simp only [runOps, elapsed]
      rw [cookieSetJson_eq lossy e h1.1 (name_size h1) h2 h3 h4]
      exact ih (s := tsSet pf s n.toList (pf.stringify (ofJson j)) e.toNat) ho
    | wait ms =>
      simp only [runOps, elapsed]
      rw [ih (s := { s with now := s.now + ms }) ho]
      show s.now + (ms : Int) + elapsed ops = _
      omega

theorem inv_start {pf : Platform} {s : Session} (hj : JarOk s.jar) (h0 : 0 ≤ s.now) (name : String) : Inv pf s.jar name s none :=
  ⟨hj, h0, by simp, fun _ _ => rfl⟩

/-- `cookie_get`, when `get` of cookies.ts returns. -/
theorem cookieGet_some' {pf : Platform} (lossy : List UInt8 → String) {s : Session} {n v : String} (hb' : ¬ Ts.bom <+: strBytes n)
    (hl : n.utf8ByteSize < 2 ^ 30) (hg : tsGet pf s n.toList = some v.toList) (hv : v.utf8ByteSize < 2 ^ 30) (hb : ¬ Ts.bom <+: strBytes v) :
    cookieGet pf lossy true s n = (some v, s) := by
  have hc : (cookieWorld pf).call s .cookie "get" [.js (.str n)] = (some (.js (.str v)), s) := by
    simp [cookieWorld, hg]
  have := (fetch_call pf lossy s "get" [.str n] [.str n] (.cons _ _ _ _ (.str n) .nil) (by simp [JsValue.WFL, JsValue.WF])
    ⟨hb', trivial⟩ (by decide)
    (by
      have e1 : "get".utf8ByteSize = 3 := by decide
      simp only [JsValue.wireLenL, JsValue.wireLen, e1]; omega)).2
  simp only [List.map, hc] at this
  have := this _ (.str v) rfl (.str v) (by simp [JsValue.WF]) hb (by simp only [JsValue.wireLen]; omega)
  simp only [cookieGet, this]

theorem cookieGet_some {pf : Platform} (lossy : List UInt8 → String) {s : Session} {n v : String} (hn : Token n.toList)
    (hl : n.utf8ByteSize < 2 ^ 30) (hg : tsGet pf s n.toList = some v.toList) (hv : v.utf8ByteSize < 2 ^ 30) (hb : ¬ Ts.bom <+: strBytes v) :
    cookieGet pf lossy true s n = (some v, s) :=
  cookieGet_some' lossy (token_bom hn) hl hg hv hb

theorem cookieGet_congr {pf : Platform} (lossy : List UInt8 → String) {s s' : Session} {n : String}
    (hn : Token n.toList) (hl : n.utf8ByteSize < 2 ^ 30) (hg : tsGet pf s n.toList = tsGet pf s' n.toList) :
    (cookieGet pf lossy true s n).1 = (cookieGet pf lossy true s' n).1 := by
  have h := fetch_eq pf lossy s s' "get" [.str n] [.str n] (.cons _ _ _ _ (.str n) .nil) (by simp [JsValue.WFL, JsValue.WF])
    ⟨token_bom hn, trivial⟩ (by decide)
    (by
      have e1 : "get".utf8ByteSize = 3 := by decide
      simp only [JsValue.wireLenL, JsValue.wireLen, e1]; omega) (by simp [cookieWorld, hg])
  unfold cookieGet
  rcases h1 : fetchCookie pf lossy true s "get" [.str n] with ⟨a, t⟩
  rcases h2 : fetchCookie pf lossy true s' "get" [.str n] with ⟨b, t'⟩
  rw [h1, h2] at h
  simp only at h
  subst h
  cases a with
  | exception => rfl
  | value v => cases v <;> rfl

theorem tsGet_write {pf : Platform} (h : pf.Ok) {jar0 : List Cookie} {name : String} {s : Session} {op : Op} {u : Int}
    (hi : Inv pf jar0 name s (some (op, u))) :
    tsGet pf s name.toList = some (if s.now < u then textOf pf op else []) := by
  rw [tsGet_eq hi.1, hi.2.2.2 s.now (Int.le_refl _)]
  by_cases hlt : s.now < u
  · simp [hlt, enc_rtrim h, h.decode_encode]
  · simp [hlt]

/-- `cookie_get_json`, when `get_json` of cookies.ts returns. -/
theorem cookieGetJson_of {pf : Platform} (lossy : List UInt8 → String) {s : Session} {n : String} {js : Js} {v : JsValue} (hn : Token n.toList)
    (hl : n.utf8ByteSize < 2 ^ 30) (hg : tsGetJson pf s n.toList = some js) (ha : Arrives js v) (hw : v.WF) (hs : Ts.JsSafe v)
    (hv : v.wireLen + 1 < 2 ^ 32) :
    fetchCookie pf lossy true s "get_json" [.str n] = (.value v, s) := by
  have hc : (cookieWorld pf).call s .cookie "get_json" [.js (.str n)] = (some (.js js), s) := by
    simp [cookieWorld, hg]
  have := (fetch_call pf lossy s "get_json" [.str n] [.str n] (.cons _ _ _ _ (.str n) .nil) (by simp [JsValue.WFL, JsValue.WF])
    ⟨token_bom hn, trivial⟩ (by decide)
    (by
      have e1 : "get_json".utf8ByteSize = 8 := by decide
      simp only [JsValue.wireLenL, JsValue.wireLen, e1]; omega)).2
  simp only [List.map, hc] at this
  exact this _ v rfl ha hw hs hv

theorem tsGetJson_write {pf : Platform} (h : pf.Ok) {jar0 : List Cookie} {name n : String} {s : Session} {j : JsJson} {e : UInt64} {u : Int}
    (hi : Inv pf jar0 name s (some (.setJson n j e, u))) (hj : Finite j) :
    tsGetJson pf s name.toList = some (if s.now < u then ofJson j else .null) := by
  have hp := h.parse_stringify j (hi.2.2.1 _ _ rfl).1 (hi.2.2.1 _ _ rfl).2.1 (hi.2.2.1 _ _ rfl).2.2 hj
  simp only [tsGetJson, tsGet_write h hi, textOf]
  split
  · have : pf.stringify (ofJson j) ≠ [] := by
      intro e
      rw [e, h.parse_empty] at hp
      cases hp
    simp [this, hp]
  · simp

/-! ## Theorems -/

/-- **C52, strings** (partial). In any history of writes and time, from any cookies, `cookie_get` returns the string last set under
the name until it expires, and then the empty string; reading changes nothing. Missing: names that are not tokens
(`C52_name_violated`), values beyond the limits of `OpsOk`, and expiry dates after the year 9999. -/
theorem C52_string_partial (pf : Platform) (hp : pf.Ok) (lossy : List UInt8 → String) (s : Session) (hj : JarOk s.jar) (h0 : 0 ≤ s.now)
    (ops : List Op) (ho : OpsOk pf s.now ops) (name n v : String) (e : UInt64) (u : Int) (hn : Token name.toList)
    (hl : name.utf8ByteSize < 2 ^ 30) (hw : lastWrite pf name s.now ops none = some (.set n v e, u)) :
    cookieGet pf lossy true (runOps pf lossy ops s) name =
      (some (if s.now + elapsed ops < u then v else ""), runOps pf lossy ops s) := by
  have hi := inv_run hp lossy ops (inv_start hj h0 name) ho
  rw [hw] at hi
  have hg := tsGet_write hp hi
  rw [run_now lossy ops ho] at hg
  have hok := hi.2.2.1 _ _ rfl
  split at hg <;> rename_i hlt
  · rw [if_pos hlt]
    exact cookieGet_some lossy hn hl hg hok.1 hok.2
  · rw [if_neg hlt]
    exact cookieGet_some lossy hn hl (by rw [hg]; rfl) (by decide) (by decide)

/-- **C52, JSON** (partial). The same for lists and objects with `cookie_set_json` and `cookie_get_json`: after the expiry it is
`Null`. Missing: strings, numbers and booleans (`C52_json_violated`), and numbers that JSON cannot express. -/
theorem C52_json_partial (pf : Platform) (hp : pf.Ok) (lossy : List UInt8 → String) (s : Session) (hj : JarOk s.jar) (h0 : 0 ≤ s.now)
    (ops : List Op) (ho : OpsOk pf s.now ops) (name n : String) (j : JsJson) (e : UInt64) (u : Int) (hn : Token name.toList)
    (hl : name.utf8ByteSize < 2 ^ 30) (hw : lastWrite pf name s.now ops none = some (.setJson n j e, u)) (hf : Finite j)
    (hc : (∃ l, j = .list l) ∨ (∃ l, j = .obj l) ∨ j = .null) :
    cookieGetJson pf lossy true (runOps pf lossy ops s) name =
      (some (if s.now + elapsed ops < u then j else .null), runOps pf lossy ops s) := by
  have hi := inv_run hp lossy ops (inv_start hj h0 name) ho
  rw [hw] at hi
  have hg := tsGetJson_write hp hi hf
  rw [run_now lossy ops ho] at hg
  obtain ⟨w1, w2, w3⟩ := hi.2.2.1 _ _ rfl
  have hnull : ∀ s, tsGetJson pf s name.toList = some .null → cookieGetJson pf lossy true s name = (some .null, s) := by
    intro s hs
    have := cookieGetJson_of lossy hn hl hs .null (by simp [JsValue.WF]) (by simp [Ts.JsSafe]) (by simp [JsValue.wireLen])
    simp only [cookieGetJson, if_true, this]
  split at hg <;> rename_i hlt
  · rw [if_pos hlt]
    have hd := denotes_ofJson j
    rcases hc with ⟨l, rfl⟩ | ⟨l, rfl⟩ | rfl
    · have := cookieGetJson_of lossy hn hl hg (.list l _ hd) w1 w2 (by simp only [JsValue.wireLen]; omega)
      simp only [cookieGetJson, if_true, this]
    · have := cookieGetJson_of lossy hn hl hg (.obj l _ hd) w1 w2 (by simp only [JsValue.wireLen]; omega)
      simp only [cookieGetJson, if_true, this]
    · exact hnull _ hg
  · rw [if_neg hlt]
    exact hnull _ hg

/-- **C52, other cookies**. A name that the history does not write reads as it would have without the history. -/
theorem C52_others (pf : Platform) (hp : pf.Ok) (lossy : List UInt8 → String) (s : Session) (hj : JarOk s.jar) (h0 : 0 ≤ s.now)
    (ops : List Op) (ho : OpsOk pf s.now ops) (name : String) (hn : Token name.toList)
    (hl : name.utf8ByteSize < 2 ^ 30) (hw : lastWrite pf name s.now ops none = none) :
    (cookieGet pf lossy true (runOps pf lossy ops s) name).1 =
      (cookieGet pf lossy true { s with now := s.now + elapsed ops } name).1 := by
  have hi := inv_run hp lossy ops (inv_start hj h0 name) ho
  rw [hw] at hi
  have hg : tsGet pf (runOps pf lossy ops s) name.toList = tsGet pf { s with now := s.now + elapsed ops } name.toList := by
    rw [tsGet_eq hi.1, hi.2.2.2 _ (Int.le_refl _), tsGet_eq (s := { s with now := s.now + elapsed ops }) hj, run_now lossy ops ho]
    rfl
  exact cookieGet_congr lossy hn hl hg

/-- **C52, JSON, violated**. A string, number or boolean that `cookie_set_json` stored is read as `Null` before it expires. -/
theorem C52_json_violated (pf : Platform) (hp : pf.Ok) (lossy : List UInt8 → String) (s : Session) (hj : JarOk s.jar) (h0 : 0 ≤ s.now)
    (ops : List Op) (ho : OpsOk pf s.now ops) (name n : String) (j : JsJson) (e : UInt64) (u : Int) (hn : Token name.toList)
    (hl : name.utf8ByteSize < 2 ^ 30) (hw : lastWrite pf name s.now ops none = some (.setJson n j e, u)) (hf : Finite j)
    (hlt : s.now + elapsed ops < u) (hc : (∃ t, j = .str t) ∨ (∃ b, j = .num b) ∨ j = .tru ∨ j = .fls) :
    cookieGetJson pf lossy true (runOps pf lossy ops s) name = (some .null, runOps pf lossy ops s) := by
  have hi := inv_run hp lossy ops (inv_start hj h0 name) ho
  rw [hw] at hi
  have hg := tsGetJson_write hp hi hf
  rw [run_now lossy ops ho, if_pos hlt] at hg
  obtain ⟨w1, w2, w3⟩ := hi.2.2.1 _ _ rfl
  have fin : ∀ v : JsValue, Arrives (ofJson j) v → v.WF → Ts.JsSafe v → v.wireLen + 1 < 2 ^ 32 → (∀ x, v ≠ .json x) →
      cookieGetJson pf lossy true (runOps pf lossy ops s) name = (some .null, runOps pf lossy ops s) := by
    intro v ha a b c d
    have := cookieGetJson_of lossy hn hl hg ha a b c
    simp only [cookieGetJson, if_true, this]
  rcases hc with ⟨t, rfl⟩ | ⟨b, rfl⟩ | rfl | rfl
  · refine fin (.str t) (.str t) (by simp [JsValue.WF]) w2 ?_ (by simp)
    simp only [JsJson.wireLen] at w3
    simp only [JsValue.wireLen]
    omega
  · by_cases h1 : ∃ k : Int32, b = intToF64 k.toInt
    · obtain ⟨k, rfl⟩ := h1
      exact fin (.i32 k) (.int k) (by simp [JsValue.WF]) (by simp [Ts.JsSafe]) (by simp [JsValue.wireLen]) (by simp)
    · exact fin (.f64 b) (.float b (fun k e => h1 ⟨k, e⟩) hf.2) (by simp [JsValue.WF]) (by simp [Ts.JsSafe]) (by simp [JsValue.wireLen]) (by simp)
  · exact fin .tru .tru (by simp [JsValue.WF]) (by simp [Ts.JsSafe]) (by simp [JsValue.wireLen]) (by simp)
  · exact fin .fls .fls (by simp [JsValue.WF]) (by simp [Ts.JsSafe]) (by simp [JsValue.wireLen]) (by simp)

/-- **C52, server**. On the server nothing is stored, and every cookie is empty. -/
theorem C52_server (pf : Platform) (lossy : List UInt8 → String) (s : Session) (name value : String) (j : JsJson) (e : UInt64) :
    cookieSet pf lossy false s name value e = s ∧ cookieSetJson pf lossy false s name j e = s ∧
    cookieGet pf lossy false s name = (some "", s) ∧ cookieGetJson pf lossy false s name = (some .null, s) := by
  simp [cookieSet, cookieSetJson, cookieGet, cookieGetJson, fetchCookie]

theorem rtrim_eq_mem {p : Char → Bool} {l : List Char} {x : Char} (h : x ∈ l) (hp : p x = false) : x ∈ rtrim p l := by
  obtain ⟨a, b, rfl⟩ := List.append_of_mem h
  unfold rtrim
  rw [List.reverse_append, List.reverse_cons, List.append_assoc, List.singleton_append, dropWhile_append _ _ _ hp]
  simp

/-- **C52, foreign cookies, violated**. A cookie whose value contains `=`, as padded base64 does, is read as the empty string, also
before it expires. -/
theorem C52_foreign_violated (pf : Platform) (lossy : List UInt8 → String) (s : Session) (hj : JarOk s.jar) (name : String) (value : List Char)
    (expires : Option Int) (hm : ⟨name.toList, value, expires⟩ ∈ s.jar) (he : '=' ∈ value) (hl : name.utf8ByteSize < 2 ^ 30) :
    cookieGet pf lossy true s name = (some "", s) := by
  have hn := (hj.2 _ hm).1
  refine cookieGet_some lossy hn hl (v := "") ?_ (by decide) (by decide)
  rw [tsGet_eq hj]
  have : (s.jar.filter (Cookie.live s.now)).find? (readable name.toList) = none := by
    rw [List.find?_eq_none]
    intro x hx hr
    simp only [readable, Bool.and_eq_true, beq_iff_eq] at hr
    have hx' := (List.mem_filter.1 hx).1
    have : x = ⟨name.toList, value, expires⟩ := by
      have := List.inj_on_of_nodup_map hj.1 hx' hm hr.1
      exact this
    subst this
    have h2 := hr.2
    simp [rtrim_eq_mem he (show jsSpace '=' = false by decide)] at h2
  rw [this]
  rfl

/-- **C52, expiry, violated**. If the expiry date is beyond the range of dates, the cookie is stored without one: it ends when the
browser is closed. -/
theorem C52_expiry_violated (pf : Platform) (hp : pf.Ok) (lossy : List UInt8 → String) (s : Session) (n v : String) (e : UInt64)
    (hn : Token n.toList) (hr : ¬ Reserved n.toList) (hl : (strBytes (String.ofList (n.toList ++ pf.encode v.toList))).length ≤ 4096)
    (hv : v.utf8ByteSize < 2 ^ 30) (hb : ¬ Ts.bom <+: strBytes v) (he : 8640000000000000 < s.now + e.toNat * 1000) :
    ⟨n.toList, pf.encode v.toList, none⟩ ∈ (cookieSet pf lossy true s n v e).jar := by
  have hsz : n.utf8ByteSize < 2 ^ 30 := by
    have h3 := hl
    rw [strBytes_length, String.ofList_append, String.utf8ByteSize_append, String.ofList_toList] at h3
    omega
  rw [cookieSet_eq lossy e hn hsz hv hb]
  simp only [tsSet, dateText, if_neg (show ¬ s.now + (e.toNat : Int) * 1000 ≤ 8640000000000000 by omega)]
  rw [assign_text s.now s.jar hn hr (encode_plain hp _) (by decide) (by decide) hl, hp.date_invalid]
  simp only [Option.elim]
  generalize (⟨n.toList, pf.encode v.toList, none⟩ : Cookie) = c
  induction s.jar with
  | nil => simp [store]
  | cons d ds ih => simp only [store]; split <;> simp [ih]

/-- **C52, names, violated**. The name `a=b` is not rejected, but what is set under it is read as the empty string. -/
theorem C52_name_violated (pf : Platform) (hp : pf.Ok) (lossy : List UInt8 → String) (now : Int) (h0 : 0 ≤ now) (v : String) (e : UInt64)
    (hl : (strBytes (String.ofList ("ab=".toList ++ pf.encode v.toList))).length ≤ 4096)
    (he : now + e.toNat * 1000 < 253402300800000) (hv : v.utf8ByteSize < 2 ^ 30) (hb : ¬ Ts.bom <+: strBytes v) :
    cookieGet pf lossy true (cookieSet pf lossy true ⟨[], now⟩ "a=b" v e) "a=b" = (some "", cookieSet pf lossy true ⟨[], now⟩ "a=b" v e) := by
  have hbn : ¬ Ts.bom <+: strBytes "a=b" := by decide
  have hln : "a=b".utf8ByteSize < 2 ^ 30 := by decide
  have hset := cookieSet_eq' (pf := pf) lossy (s := ⟨[], now⟩) (n := "a=b") (v := v) e hbn hln hv hb
  rw [hset]
  refine cookieGet_some' lossy hbn hln (v := "") ?_ (by decide) (by decide)
  have ht0 : 0 ≤ now + (e.toNat : Int) * 1000 := by omega
  have hu := utc_ok hp ht0 (by omega)
  have htok : Token "a".toList := by refine ⟨by decide, ?_⟩; decide
  have hplain : ∀ c ∈ "b=".toList ++ pf.encode v.toList, (33 ≤ c.toNat ∧ c.toNat ≤ 126) ∧ c ≠ ';' := by
    intro c hc
    rcases List.mem_append.1 hc with h | h
    · revert h
      have : ∀ c ∈ "b=".toList, (33 ≤ c.toNat ∧ c.toNat ≤ 126) ∧ c ≠ ';' := by decide
      exact this c
    · exact encode_plain hp _ c h
  have hjar := assign_text (pf := pf) now [] htok (by unfold Reserved; decide) hplain hu.1 hu.2
    (by simpa using hl)
  rw [hp.date_utc _ ht0 he] at hjar
  have htext : "a".toList ++ '=' :: ("b=".toList ++ pf.encode v.toList ++ ';' :: ("expires=".toList ++ (pf.utc (now + (e.toNat : Int) * 1000) ++ ";path=/;samesite=strict\"".toList))) =
      "a=b".toList ++ '=' :: (pf.encode v.toList ++ ';' :: ("expires=".toList ++ (pf.utc (now + (e.toNat : Int) * 1000) ++ ";path=/;samesite=strict\"".toList))) := by
    simp
  rw [htext] at hjar
  have hok : JarOk (tsSet pf ⟨[], now⟩ "a=b".toList v.toList e.toNat).jar ∧
      ∀ c ∈ (tsSet pf ⟨[], now⟩ "a=b".toList v.toList e.toNat).jar, c.name = "a".toList := by
    simp only [tsSet, dateText, if_pos (show now + (e.toNat : Int) * 1000 ≤ 8640000000000000 by omega), hjar, Option.elim]
    split
    · simp [JarOk]
    · exact ⟨store_ok (by simp [JarOk]) ⟨htok, fun h => (hplain _ h).2 rfl⟩, by simp [store]⟩
  rw [tsGet_eq hok.1]
  have : ((tsSet pf ⟨[], now⟩ "a=b".toList v.toList e.toNat).jar.filter
      (Cookie.live (tsSet pf ⟨[], now⟩ "a=b".toList v.toList e.toNat).now)).find? (readable "a=b".toList) = none := by
    rw [List.find?_eq_none]
    intro x hx hr
    simp only [readable, Bool.and_eq_true, beq_iff_eq] at hr
    have := hok.2 x (List.mem_filter.1 hx).1
    rw [hr.1] at this
    revert this
    decide
  rw [this]
  rfl

/-! ### An example -/

/-- The characters that `encodeURIComponent` leaves. -/
def unreserved (b : UInt8) : Bool :=
  (48 ≤ b && b ≤ 57) || (65 ≤ b && b ≤ 90) || (97 ≤ b && b ≤ 122) || [45, 95, 46, 33, 126, 42, 39, 40, 41].contains b

def hexDigit (n : Nat) : Char := if n < 10 then Char.ofNat (48 + n) else Char.ofNat (55 + n)
def hexValue (c : Char) : Nat := if c.toNat < 58 then c.toNat - 48 else c.toNat - 55

/-- A byte of `encodeURIComponent`. -/
def pct (b : UInt8) : List Char :=
  if unreserved b then [Char.ofNat b.toNat] else ['%', hexDigit (b.toNat / 16), hexDigit (b.toNat % 16)]

/-- The bytes of a text in this encoding. -/
def unpct : List Char → Option (List UInt8)
  | [] => some []
  | c :: r =>
      if c = '%' then
        match r with
        | a :: b :: r => (unpct r).map (UInt8.ofNat (hexValue a * 16 + hexValue b) :: ·)
        | _ => none
      else (unpct r).map (UInt8.ofNat c.toNat :: ·)

theorem forall_byte {P : UInt8 → Prop} (h : ∀ n : Fin 256, P (UInt8.ofNat n.val)) (b : UInt8) : P b := by
  have := h ⟨b.toNat, b.toNat_lt⟩
  simpa using this

theorem pct_chars (b : UInt8) : ∀ c ∈ pct b, c.isAlphanum ∨ c ∈ "-_.!~*'()%".toList := by
  revert b
  refine forall_byte ?_
  decide +kernel

theorem unpct_pct (b : UInt8) (r : List Char) : unpct (pct b ++ r) = (unpct r).map (b :: ·) := by
  unfold pct
  split
  · rename_i h
    have key : ∀ b : UInt8, unreserved b = true → Char.ofNat b.toNat ≠ '%' ∧ UInt8.ofNat (Char.ofNat b.toNat).toNat = b :=
      forall_byte (by decide +kernel)
    have := key b h
    simp only [List.singleton_append]
    rw [unpct.eq_def]
    simp [this.1, this.2]
  · have key : ∀ b : UInt8, UInt8.ofNat (hexValue (hexDigit (b.toNat / 16)) * 16 + hexValue (hexDigit (b.toNat % 16))) = b :=
      forall_byte (by decide +kernel)
    simp only [List.cons_append, List.nil_append]
    rw [unpct.eq_def]
    simp [key b]

theorem unpct_all (l : List UInt8) : unpct (l.flatMap pct) = some l := by
  induction l with
  | nil => rfl
  | cons b bs ih => rw [List.flatMap_cons, unpct_pct, ih]; rfl

/-- A platform: percent encoding of UTF-8; JSON values as their bytes in the memory of the program; dates as a letter for each
second. -/
def examplePlatform : Platform where
  encode := fun v => (strBytes (String.ofList v)).flatMap pct
  decode := fun t => (unpct t).bind fun b => (fromUtf8 b).map String.toList
  stringify := fun js => match toJsJson js with | some j => (encV (.json j)).map fun b => Char.ofNat b.toNat | none => []
  parse := fun t =>
    match fromBlock (t.map fun c => UInt8.ofNat c.toNat) with
    | .ok (.json j) => some (ofJson j)
    | _ => none
  utc := fun t => List.replicate (t / 1000).toNat 'a'
  date := fun d => if d.all (· == 'a') then some (d.length * 1000) else none
  keep := 400 * 86400000

theorem byte_char (b : UInt8) : UInt8.ofNat (Char.ofNat b.toNat).toNat = b := by
  revert b
  exact forall_byte (by decide +kernel)

theorem examplePlatform_ok : examplePlatform.Ok where
  decode_encode := fun v => by simp [examplePlatform, unpct_all, fromUtf8_strBytes]
  encode_chars := fun v c hc => by
    obtain ⟨b, -, hb⟩ := List.mem_flatMap.1 hc
    exact pct_chars b c hb
  parse_stringify := fun j hw hs hl _ => by
    have hr : fromBlock (encV (.json j)) = .ok (.json j) := by
      have hlen : (JsValue.json j).wireLen < 2 ^ 32 := by simp only [JsValue.wireLen]; omega
      obtain ⟨m, h1, h2⟩ := C15_value_roundtrip_partial (.json j) hw (by simp [JsValue.NoObject]) (by simp only [JsValue.wireLen]; omega)
      rw [(toSnapshot_eq _ hlen).1] at h1
      cases h1
      exact h2
    simp only [examplePlatform, toJson_of j hw hs, List.map_map]
    have : ((fun c : Char => UInt8.ofNat c.toNat) ∘ fun b : UInt8 => Char.ofNat b.toNat) = id := by
      funext b; exact byte_char b
    rw [this, List.map_id, hr]
  parse_empty := by rfl
  date_utc := fun t h0 _ => by
    simp only [examplePlatform, List.length_replicate]
    rw [if_pos (by simp)]
    congr 1
    omega
  utc_chars := fun t _ _ c hc => by
    have := List.eq_of_mem_replicate hc
    subst this
    exact .inl (by decide)
  utc_first := fun t _ _ => by
    simp only [examplePlatform, List.head?_replicate]
    split <;> simp
  utc_last := fun t _ _ => by
    simp only [examplePlatform, List.getLast?_replicate]
    split <;> simp
  date_invalid := by decide

/-- A session with a cookie of another program. -/
def exampleSession : Session := ⟨[⟨"id".toList, "eA==".toList, none⟩], 1500⟩

/-- Two writes under `lang`, one of a list under `cart`, and time. -/
def exampleOps : List Op :=
  [.set "lang" "pl" 10, .setJson "cart" (.list [.str "a;b=c", .tru]) 10, .wait 2000, .set "lang" "zażółć; x=y" 5, .wait 3000]

theorem exampleSession_ok : JarOk exampleSession.jar := by
  refine ⟨by decide, ?_⟩
  intro c hc
  simp only [exampleSession, List.mem_singleton] at hc
  subst hc
  exact ⟨⟨by decide, by decide⟩, by decide⟩

theorem exampleOps_ok : OpsOk examplePlatform exampleSession.now exampleOps := by
  refine ⟨⟨⟨⟨by decide, by decide⟩, ?_, by decide +kernel, by decide⟩, by decide, by decide +kernel⟩,
    ⟨⟨⟨by decide, by decide⟩, ?_, by decide +kernel, by decide⟩, ?_, ?_, by decide +kernel⟩,
    ⟨⟨⟨by decide, by decide⟩, ?_, by decide +kernel, by decide⟩, by decide +kernel, by decide +kernel⟩, trivial⟩
  · unfold Reserved; decide
  · unfold Reserved; decide
  · simp [JsJson.WF, JsJson.WFL]
  · simp only [Ts.JsSafeJ, Ts.JsSafeJL]; decide +kernel
  · unfold Reserved; decide

/-- The second value of `lang` is read 3 seconds after it was set. -/
example (lossy : List UInt8 → String) :
    (cookieGet examplePlatform lossy true (runOps examplePlatform lossy exampleOps exampleSession) "lang").1 = some "zażółć; x=y" := by
  rw [C52_string_partial examplePlatform examplePlatform_ok lossy exampleSession exampleSession_ok (by decide) exampleOps exampleOps_ok
    "lang" "lang" "zażółć; x=y" 5 8000 ⟨by decide, by decide⟩ (by decide) rfl]
  rfl

/-- After another 2 seconds it has expired. -/
example (lossy : List UInt8 → String) :
    (cookieGet examplePlatform lossy true (runOps examplePlatform lossy (exampleOps ++ [.wait 2000]) exampleSession) "lang").1 = some "" := by
  have ho : OpsOk examplePlatform exampleSession.now (exampleOps ++ [.wait 2000]) := exampleOps_ok
  rw [C52_string_partial examplePlatform examplePlatform_ok lossy exampleSession exampleSession_ok (by decide) _ ho
    "lang" "lang" "zażółć; x=y" 5 8000 ⟨by decide, by decide⟩ (by decide) rfl]
  rfl

example (lossy : List UInt8 → String) :
    (cookieGetJson examplePlatform lossy true (runOps examplePlatform lossy exampleOps exampleSession) "cart").1 =
      some (.list [.str "a;b=c", .tru]) := by
  rw [C52_json_partial examplePlatform examplePlatform_ok lossy exampleSession exampleSession_ok (by decide) exampleOps exampleOps_ok
    "cart" "cart" (.list [.str "a;b=c", .tru]) 10 11000 ⟨by decide, by decide⟩ (by decide) rfl (by simp [Finite, FiniteL]) (.inl ⟨_, rfl⟩)]
  rfl

/-- `id` is not written by these operations; its value contains `=`. -/
example (lossy : List UInt8 → String) :
    (cookieGet examplePlatform lossy true (runOps examplePlatform lossy exampleOps exampleSession) "id").1 =
      (cookieGet examplePlatform lossy true { exampleSession with now := exampleSession.now + elapsed exampleOps } "id").1 :=
  C52_others examplePlatform examplePlatform_ok lossy exampleSession exampleSession_ok (by decide) exampleOps exampleOps_ok "id"
    ⟨by decide, by decide⟩ (by decide) rfl

example (lossy : List UInt8 → String) : cookieGet examplePlatform lossy true exampleSession "id" = (some "", exampleSession) :=
  C52_foreign_violated examplePlatform lossy exampleSession exampleSession_ok "id" "eA==".toList none (by simp [exampleSession]) (by decide)
    (by decide)

/-- A string, set 1 second ago for 10 seconds, is read as `Null`. -/
example (lossy : List UInt8 → String) :
    (cookieGetJson examplePlatform lossy true (runOps examplePlatform lossy [.setJson "lang" (.str "pl") 10, .wait 1000] exampleSession) "lang").1 =
      some .null := by
  rw [C52_json_violated examplePlatform examplePlatform_ok lossy exampleSession exampleSession_ok (by decide)
    [.setJson "lang" (.str "pl") 10, .wait 1000]
    ⟨⟨⟨⟨by decide, by decide⟩, by unfold Reserved; decide, by decide +kernel, by decide⟩, by simp [JsJson.WF],
      by simp only [Ts.JsSafeJ]; decide +kernel, by decide +kernel⟩, trivial⟩
    "lang" "lang" (.str "pl") 10 11000 ⟨by decide, by decide⟩ (by decide) rfl (by simp [Finite]) (by decide) (.inl ⟨_, rfl⟩)]

example (lossy : List UInt8 → String) :
    (cookieGet examplePlatform lossy true (cookieSet examplePlatform lossy true ⟨[], 0⟩ "a=b" "v" 10) "a=b").1 = some "" := by
  rw [C52_name_violated examplePlatform examplePlatform_ok lossy 0 (by decide) "v" 10 (by decide +kernel) (by decide) (by decide) (by decide +kernel)]

/-- `u64::MAX` seconds. -/
example (lossy : List UInt8 → String) :
    ⟨"a".toList, examplePlatform.encode "v".toList, none⟩ ∈ (cookieSet examplePlatform lossy true ⟨[], 0⟩ "a" "v" 18446744073709551615).jar :=
  C52_expiry_violated examplePlatform examplePlatform_ok lossy ⟨[], 0⟩ "a" "v" _ ⟨by decide, by decide⟩ (by unfold Reserved; decide)
    (by decide +kernel) (by decide) (by decide +kernel) (by decide)

end Verif.Host.Cookies

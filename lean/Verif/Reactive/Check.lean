import Verif.Reactive.StaticStar
/-!
# Executable checks, used to show that concrete programs meet the hypotheses of the
theorems, and that concrete programs are counterexamples
-/
namespace Verif.Reactive

variable {V : Type}

def final (r : Except Err (St V)) : St V :=
  match r with
  | .ok s => s
  | .error _ => {}

def isOk (r : Except Err (St V)) : Bool :=
  match r with
  | .ok _ => true
  | .error _ => false

theorem final_of_isOk {r : Except Err (St V)} (h : isOk r = true) : r = .ok (final r) := by
  cases r with
  | ok s => rfl
  | error e => cases h

/-- All sequences of nodes a closure can read, with values from a finite type. -/
def Prog.paths {n : Nat} : Prog (Fin n) → List (List GraphId)
  | .ret _ => [[]]
  | .read id k => (List.finRange n).flatMap fun v => ((k v).paths).map (id :: ·)

theorem Prog.path_mem {n : Nat} {p : Prog (Fin n)} {l} (h : p.Path l) : l ∈ p.paths := by
  induction h with
  | ret v => simp [Prog.paths]
  | @read id k v l _ ih =>
    simp only [Prog.paths, List.mem_flatMap, List.mem_map]
    exact ⟨v, List.mem_finRange v, l, ih, rfl⟩

theorem Prog.path_of_mem {n : Nat} {p : Prog (Fin n)} {l} (h : l ∈ p.paths) : p.Path l := by
  induction p generalizing l with
  | ret v => simp [Prog.paths] at h; subst h; exact .ret v
  | read id k ih =>
    simp only [Prog.paths, List.mem_flatMap, List.mem_map] at h
    obtain ⟨v, _, m, hm, rfl⟩ := h
    exact .read (ih v hm)

/-- Check that some computed reads `z` only sometimes. -/
def sometimesCheck {n : Nat} (z : GraphId) (log : List (Ev (Fin n))) : Bool :=
  log.any fun e => match e with
    | .defined _ p => p.paths.any (fun l => decide (z ∈ l)) && p.paths.any (fun l => decide (z ∉ l))
    | _ => false

theorem not_static_of_check {n : Nat} {z} {log : List (Ev (Fin n))} (h : sometimesCheck z log = true) :
    ¬ StaticLog log := by
  intro hs
  obtain ⟨e, he, h⟩ := List.any_eq_true.mp h
  split at h
  · rename_i id p
    simp only [Bool.and_eq_true, List.any_eq_true, decide_eq_true_eq] at h
    obtain ⟨⟨l, h1, h2⟩, l', h3, h4⟩ := h
    obtain ⟨R, hR, _⟩ := hs id p he
    exact hR.not_sometimes ⟨⟨l, Prog.path_of_mem h1, h2⟩, l', Prog.path_of_mem h3, h4⟩
  · cases h

/-- Check of `StaticLog`. -/
def staticCheck {n : Nat} (log : List (Ev (Fin n))) : Bool :=
  log.all fun e => match e with
    | .defined id p =>
        match p.paths with
        | [] => true
        | R :: rest => (R :: rest).all (fun l => l.all (fun x => decide (x ∈ R)) && R.all (fun x => decide (x ∈ l))) &&
            R.all fun r => decide (r.num < id.num)
    | _ => true

theorem staticLog_of_check {n : Nat} {log : List (Ev (Fin n))} (h : staticCheck log = true) : StaticLog log := by
  intro id p hm
  have := List.all_eq_true.mp h _ hm
  simp only at this
  split at this
  · rename_i hp
    refine ⟨[], fun l hl => ?_, by simp⟩
    have := Prog.path_mem hl; rw [hp] at this; cases this
  · rename_i R rest hp
    simp only [Bool.and_eq_true, List.all_eq_true, decide_eq_true_eq] at this
    obtain ⟨h1, h2⟩ := this
    refine ⟨R, fun l hl x => ?_, h2⟩
    have hm := Prog.path_mem hl; rw [hp] at hm
    obtain ⟨g1, g2⟩ := h1 l hm
    exact ⟨g1 x, g2 x⟩

/-- Which computed can read which node. -/
def readsList {n : Nat} (log : List (Ev (Fin n))) : List (GraphId × GraphId) :=
  (log.flatMap fun e => match e with
    | .defined id p => p.paths.flatten.map fun x => (id, x)
    | _ => []).eraseDups

/-- Everything reached from `S` along `R`, if `R` is short enough. -/
def closeUnder (R : List (GraphId × GraphId)) (S : List GraphId) : List GraphId :=
  R.foldl (fun S _ => R.foldl (fun S r => if r.1 ∈ S && r.2 ∉ S then r.2 :: S else S) S) S

/-- Check of one conditional dependency `z` of `y`. -/
def privateAt (R : List (GraphId × GraphId)) (y z : GraphId) : Bool :=
  let up := closeUnder (R.map fun r => (r.2, r.1)) ((R.filter fun r => r.2 = y).map (·.1))
  let dn := closeUnder R [z]
  decide (z ∈ dn) && R.all fun r => (!(decide (r.2 = y) || decide (r.2 ∈ up)) || decide (r.1 ∈ up)) &&
    (!decide (r.1 ∈ dn) || decide (r.2 ∈ dn)) &&
    !(decide (r.1 ∈ up) && decide (r.2 ∈ dn) && decide (r.2.kind = .computed))

/-- Check of `Private`. -/
def privateCheck {n : Nat} (log : List (Ev (Fin n))) : Bool :=
  (readsList log).all (fun r => decide (r.2.num < r.1.num)) &&
  log.all fun e => match e with
    | .defined y p => p.paths.flatten.all fun z =>
        decide (z.kind ≠ .computed) || p.paths.all (fun l => decide (z ∈ l)) || privateAt (readsList log) y z
    | _ => true

theorem mem_readsList {n : Nat} {log : List (Ev (Fin n))} {x y} (h : Reads (defsOf log) x y) :
    (x, y) ∈ readsList log := by
  obtain ⟨p, l, h1, h2, h3⟩ := h
  unfold readsList
  rw [List.mem_eraseDups, List.mem_flatMap]
  exact ⟨_, h1, List.mem_map.mpr ⟨y, List.mem_flatten.mpr ⟨l, Prog.path_mem h2, h3⟩, rfl⟩⟩

theorem private_of_check {n : Nat} {log : List (Ev (Fin n))} (h : privateCheck log = true) :
    Private (defsOf log) := by
  simp only [privateCheck, Bool.and_eq_true, List.all_eq_true, decide_eq_true_eq] at h
  obtain ⟨h1, h2⟩ := h
  refine ⟨fun x y hr => h1 _ (mem_readsList hr), ?_⟩
  rintro y p z hd ⟨⟨l, hl, hz⟩, l', hl', hz'⟩ hk
  have := h2 _ hd
  simp only [List.all_eq_true, Bool.or_eq_true, decide_eq_true_eq] at this
  have hc := this z (List.mem_flatten.mpr ⟨l, Prog.path_mem hl, hz⟩)
  rcases hc with (hc | hc) | hc
  · exact absurd hk hc
  · exact absurd (hc l' (Prog.path_mem hl')) hz'
  simp only [privateAt, Bool.and_eq_true, List.all_eq_true, decide_eq_true_eq, Bool.or_eq_true,
    Bool.not_eq_true', Bool.or_eq_false_iff, Bool.and_eq_false_iff, decide_eq_false_iff_not] at hc
  obtain ⟨c0, c1⟩ := hc
  intro x w hup hdn hw hr
  have hu : x ∈ closeUnder ((readsList log).map fun r => (r.2, r.1))
      (((readsList log).filter fun r => decide (r.2 = y)).map (·.1)) := by
    clear hr
    induction hup using Relation.TransGen.head_induction_on with
    | single h =>
      rcases (c1 _ (mem_readsList h)).1.1 with g | g
      · exact absurd rfl g.1
      · exact g
    | head h _ ih =>
      rcases (c1 _ (mem_readsList h)).1.1 with g | g
      · exact absurd ih g.2
      · exact g
  have hd' : ∀ w, Relation.ReflTransGen (Reads (defsOf log)) z w → w ∈ closeUnder (readsList log) [z] := by
    intro w hdn
    induction hdn with
    | refl => exact c0
    | tail _ h ih =>
      rcases (c1 _ (mem_readsList h)).1.2 with g | g
      · exact absurd ih g
      · exact g
  rcases (c1 _ (mem_readsList hr)).2 with (g | g) | g
  · exact g hu
  · exact g (hd' w hdn)
  · exact g hw

/-- Check that `z` does not depend on `t`. -/
def apartFrom (R : List (GraphId × GraphId)) (t z : GraphId) : Bool :=
  let dn := closeUnder R [z]
  decide (z ∈ dn) && decide (t ∉ dn) && R.all fun r => !decide (r.1 ∈ dn) || decide (r.2 ∈ dn)

/-- Check of `Steady`. -/
def steadyCheck {n : Nat} (t : GraphId) (log : List (Ev (Fin n))) : Bool :=
  log.all fun e => match e with
    | .defined _ p => p.paths.flatten.all fun z =>
        decide (z.kind ≠ .computed) || p.paths.all (fun l => decide (z ∈ l)) || apartFrom (readsList log) t z
    | _ => true

theorem steady_of_check {n : Nat} {t} {log : List (Ev (Fin n))} (h : steadyCheck t log = true) :
    Steady (defsOf log) t := by
  simp only [steadyCheck, List.all_eq_true] at h
  rintro y p z hd ⟨⟨l, hl, hz⟩, l', hl', hz'⟩ hk hdn
  have := h _ hd
  simp only [List.all_eq_true, Bool.or_eq_true, decide_eq_true_eq] at this
  have hc := this z (List.mem_flatten.mpr ⟨l, Prog.path_mem hl, hz⟩)
  rcases hc with (hc | hc) | hc
  · exact hc hk
  · exact hz' (hc l' (Prog.path_mem hl'))
  simp only [apartFrom, Bool.and_eq_true, List.all_eq_true, decide_eq_true_eq, Bool.or_eq_true,
    Bool.not_eq_true', decide_eq_false_iff_not] at hc
  obtain ⟨⟨c0, c1⟩, c2⟩ := hc
  have hd' : ∀ w, Relation.ReflTransGen (Reads (defsOf log)) z w → w ∈ closeUnder (readsList log) [z] := by
    intro w hdn
    induction hdn with
    | refl => exact c0
    | tail _ h ih =>
      rcases c2 _ (mem_readsList h) with g | g
      · exact absurd ih g
      · exact g
  exact c1 (hd' t hdn)

/-- Evaluation from scratch by recursion; the first argument limits the depth. -/
def Prog.evalScratch (rd : GraphId → Option V) : Prog V → Option V
  | .ret v => some v
  | .read id k => match rd id with
    | some w => (k w).evalScratch rd
    | none => none

def scratchEval (vals : GraphId → Option V) (defs : GraphId → Option (Prog V)) : Nat → GraphId → Option V
  | 0, _ => none
  | n + 1, id =>
      match id.kind with
      | .value => vals id
      | .computed => match defs id with
        | some p => p.evalScratch (scratchEval vals defs n)
        | none => none
      | .client => none

theorem scratch_of_eval {vals : GraphId → Option V} {defs : GraphId → Option (Prog V)} {n id v}
    (h : scratchEval vals defs n id = some v) : Scratch vals defs id v := by
  induction n generalizing id v with
  | zero => cases h
  | succ n ih =>
    simp only [scratchEval] at h
    split at h
    · exact .value ‹_› h
    · rename_i hk
      split at h
      · rename_i p hp
        refine .computed hk hp ?_
        clear hp
        induction p with
        | ret w => simp [Prog.evalScratch] at h; subst h; exact .ret
        | read x k ihk =>
          simp only [Prog.evalScratch] at h
          split at h
          · rename_i w hw; exact .read (ih hw) (ihk _ h)
          · cases h
      · cases h
    · cases h

end Verif.Reactive

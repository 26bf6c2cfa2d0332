import Verif.Dom.Command
import Mathlib.Data.List.Induction
/-!
# C30: attributes keep the last value and are listed in the order of the last write
-/
namespace Verif.Dom

/-- Specification: the writes that are not followed by another write of the same name. -/
def lastWrites : List (String × String) → List (String × String)
  | [] => []
  | w :: ws => if ws.any (·.1 = w.1) then lastWrites ws else w :: lastWrites ws

/-- Specification: the value of the last write of a name. -/
def lastValue (name : String) : List (String × String) → Option String
  | [] => none
  | w :: ws =>
      match lastValue name ws with
      | some v => some v
      | none => if w.1 = name then some w.2 else none

/-- A history of writes of a new map. -/
def OrderedMap.writes (ws : List (String × String)) : OrderedMap :=
  ws.foldl (fun m w => m.set w.1 w.2) {}

theorem lastWrites_append (ws : List (String × String)) (k v : String) :
    lastWrites (ws ++ [(k, v)]) = (lastWrites ws).filter (·.1 ≠ k) ++ [(k, v)] := by
  induction ws with
  | nil => simp [lastWrites]
  | cons w ws ih =>
    simp only [List.cons_append, lastWrites, List.any_append, List.any_cons, List.any_nil, Bool.or_false,
      Bool.or_eq_true, decide_eq_true_eq, ih]
    by_cases h1 : (ws.any (·.1 = w.1)) = true
    · simp [h1]
    · simp only [h1, false_or, Bool.false_eq_true, if_false]
      by_cases h2 : k = w.1
      · simp [h2]
      · simp [h2, Ne.symm h2]

theorem lastValue_append (ws : List (String × String)) (k v name : String) :
    lastValue name (ws ++ [(k, v)]) = if name = k then some v else lastValue name ws := by
  induction ws with
  | nil => simp only [List.nil_append, lastValue]; split <;> split <;> simp_all
  | cons w ws ih =>
    simp only [List.cons_append, lastValue, ih]
    by_cases h : name = k <;> simp [h]

theorem lastValue_of_mem {ws : List (String × String)} {w} (h : w ∈ lastWrites ws) : lastValue w.1 ws = some w.2 := by
  induction ws with
  | nil => simp [lastWrites] at h
  | cons x ws ih =>
    simp only [lastWrites] at h
    have hnone : ∀ ws : List (String × String), ∀ n, (ws.any (·.1 = n)) = false → lastValue n ws = none := by
      intro ws n
      induction ws with
      | nil => intro _; rfl
      | cons y ws ih =>
        intro h
        simp only [List.any_cons, Bool.or_eq_false_iff, decide_eq_false_iff_not] at h
        simp [lastValue, ih h.2, h.1]
    split at h
    · simp [lastValue, ih h]
    · rename_i hx
      rcases List.mem_cons.mp h with rfl | h
      · simp [lastValue, hnone ws w.1 (Bool.eq_false_iff.mpr hx)]
      · simp [lastValue, ih h]

theorem writes_data (ws : List (String × String)) :
    (OrderedMap.writes ws).data = (fun n => lastValue n ws) ∧ (OrderedMap.writes ws).order = (lastWrites ws).map (·.1) := by
  induction ws using List.reverseRecOn with
  | nil => exact ⟨rfl, rfl⟩
  | append_singleton ws w ih =>
    obtain ⟨h1, h2⟩ := ih
    have e : OrderedMap.writes (ws ++ [w]) = (OrderedMap.writes ws).set w.1 w.2 := by
      simp [OrderedMap.writes]
    rw [e]
    unfold OrderedMap.set
    simp only [if_true, Option.isSome_some, h1, h2]
    refine ⟨?_, ?_⟩
    · funext n; rw [lastValue_append]
    · rw [lastWrites_append]
      simp [List.filter_map, Function.comp_def]

/-- **C30.** After any sequence of writes the map lists, without a panic, exactly the last
write of every name, in the order of these writes. -/
theorem C30_lists_last_writes (ws : List (String × String)) :
    (OrderedMap.writes ws).getIter = some (lastWrites ws) := by
  obtain ⟨h1, h2⟩ := writes_data ws
  unfold OrderedMap.getIter
  rw [h2]
  have : ∀ l : List (String × String), (∀ w ∈ l, lastValue w.1 ws = some w.2) →
      (OrderedMap.writes ws).getIterLoop (l.map (·.1)) = some l := by
    intro l
    induction l with
    | nil => intro _; rfl
    | cons w l ih =>
      intro h
      simp only [List.map_cons, OrderedMap.getIterLoop, h1, h w (by simp), ih fun x hx => h x (by simp [hx])]
  exact this _ fun w hw => lastValue_of_mem hw

/-- **C30.** Every name is listed once, with the value written last, and every written name
is listed. -/
theorem C30_names_once_last_value (ws : List (String × String)) :
    ((lastWrites ws).map (·.1)).Nodup ∧
    (∀ n v, (n, v) ∈ lastWrites ws → lastValue n ws = some v) ∧
    (∀ w ∈ ws, w.1 ∈ (lastWrites ws).map (·.1)) := by
  have hin : ∀ ws : List (String × String), ∀ w ∈ ws, w.1 ∈ (lastWrites ws).map (·.1) := by
    intro ws
    induction ws with
    | nil => simp
    | cons x ws ih =>
      intro w hw
      simp only [lastWrites]
      rcases List.mem_cons.mp hw with rfl | hw
      · split
        · rename_i h
          simp only [List.any_eq_true, decide_eq_true_eq] at h
          obtain ⟨y, hy, e⟩ := h
          rw [← e]; exact ih y hy
        · simp
      · split
        · exact ih w hw
        · exact List.mem_cons_of_mem _ (ih w hw)
  have hsub : ∀ ws : List (String × String), ∀ w ∈ lastWrites ws, w ∈ ws := by
    intro ws
    induction ws with
    | nil => simp [lastWrites]
    | cons x ws ih =>
      intro w hw
      simp only [lastWrites] at hw
      split at hw
      · exact List.mem_cons_of_mem _ (ih w hw)
      · rcases List.mem_cons.mp hw with rfl | hw
        · simp
        · exact List.mem_cons_of_mem _ (ih w hw)
  refine ⟨?_, fun n v h => lastValue_of_mem h, hin ws⟩
  induction ws with
  | nil => simp [lastWrites]
  | cons x ws ih =>
    simp only [lastWrites]
    split
    · exact ih
    · rename_i h
      simp only [List.map_cons, List.nodup_cons]
      refine ⟨fun hm => h ?_, ih⟩
      obtain ⟨w, hw, e⟩ := List.mem_map.mp hm
      simp only [List.any_eq_true, decide_eq_true_eq]
      exact ⟨w, hsub ws w hw, e⟩

/-- The unit test of the code base (ordered_map.rs:66-82), as an instance. -/
example : (OrderedMap.writes [("aa", "1"), ("bb", "2"), ("cc", "3"), ("bb", "4")]).getIter =
    some [("aa", "1"), ("cc", "3"), ("bb", "4")] := by
  rw [C30_lists_last_writes]; rfl

end Verif.Dom

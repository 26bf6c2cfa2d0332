import Verif.Reactive.MachineProps
/-!
# C01, C07: examples for conditional dependencies
-/
namespace Verif.Reactive

/-- `y` reads `ca` or `cb` depending on `flag`; `x` depends on `y` and on `c`. -/
def condProgram : Act (Fin 4) :=
  .newValue 1 false fun flag => .newValue 1 false fun a => .newValue 2 true fun b => .newValue 0 false fun d =>
  .newComputed (.read a fun u => .ret (u + 1)) fun ca =>
  .newComputed (.read b .ret) fun cb =>
  .newComputed (.read d .ret) fun c =>
  .newComputed (.read flag fun f => if f = 1 then .read ca .ret else .read cb .ret) fun y =>
  .newComputed (.read c fun u => .read y fun v => if u = 0 then .ret v else .read d fun _ => .ret (v + 1)) fun x =>
  .subscribe x false false (fun _ => .get y fun _ => .done) fun _ =>
  Act.set flag 0 <| Act.set a 2 <| Act.set flag 1 <| Act.set d 1 .done

/-- The program meets the hypotheses of the theorems, although it is not one whose computeds
always read the same nodes: the dependencies of `x` and `y` change, and the external source
of `b` is connected and disconnected. The subscription is given every value. -/
example : ∃ s, condProgram.exec 20 = .ok s ∧ Private (defsOf s.log) ∧ s.tx = .idle ∧
    Undisturbed (defsOf s.log) ⟨.client, 10⟩ ⟨.computed, 9⟩ s.log ∧
    deliveries ⟨.client, 10⟩ s.log = [2, 3, 0] ∧ opened ⟨.value, 3⟩ s.log = false ∧
    Scratch s.vals s.defs ⟨.computed, 9⟩ 0 ∧ ¬ StaticLog s.log := by
  refine ⟨_, final_of_isOk (by decide +kernel), private_of_check (by decide +kernel), by decide +kernel,
    ⟨quiet_of_check (by decide +kernel), Or.inl (steady_of_check (by decide +kernel))⟩,
    by decide +kernel, by decide +kernel, scratch_of_eval (n := 5) (by decide +kernel),
    not_static_of_check (z := ⟨.computed, 5⟩) (by decide +kernel)⟩

/-- The first call of the second callback reads `e`, which no longer reads `d`. -/
def unreadProgram : Act (Fin 16) :=
  .newValue 1 false fun src => .newValue 1 false fun flag =>
  .newComputed (.read src .ret) fun d =>
  .newComputed (.read flag fun f => if f = 1 then .read d .ret else .ret 7) fun e =>
  .subscribe e false false (fun _ => .done) fun _ =>
  .txBegin <| Act.set flag 2 <|
  .subscribe d false false (fun _ => .get e fun _ => .done) fun _ =>
  .txEnd <| Act.set src 5 .done

/-- **C07 is false** for a computed that another one depends on conditionally, even if the
conditional dependencies are private and the first call of the callback only reads: this read
can release the computed, and later changes are not delivered. -/
theorem C07_first_read_releases_violated :
    ∃ (a : Act (Fin 16)) (s : St (Fin 16)) (t c : GraphId), a.exec 10 = .ok s ∧ s.tx = .idle ∧
      Private (defsOf s.log) ∧ FirstRunQuiet c s.log ∧ t.kind = .computed ∧ .subscribed c t false ∈ s.log ∧
      (∀ x, .dropped x ∉ s.log) ∧ lastDelivered c s.log = some 1 ∧ Scratch s.vals s.defs t 5 := by
  refine ⟨unreadProgram, final (unreadProgram.exec 10), ⟨.computed, 3⟩, ⟨.client, 6⟩,
    final_of_isOk (by decide +kernel), by decide +kernel, private_of_check (by decide +kernel),
    quiet_of_check (by decide +kernel), rfl, ?_, ?_, by decide +kernel, scratch_of_eval (n := 5) (by decide +kernel)⟩
  · have h : (final (unreadProgram.exec 10)).log.any (fun e => match e with
        | .subscribed c t a => c = ⟨.client, 6⟩ && t = ⟨.computed, 3⟩ && a == false
        | _ => false) = true := by decide +kernel
    obtain ⟨e, he, h⟩ := List.any_eq_true.mp h
    split at h
    · simp at h; obtain ⟨⟨rfl, rfl⟩, rfl⟩ := h; exact he
    · cases h
  · have h : (final (unreadProgram.exec 10)).log.all (fun e => match e with
        | .dropped _ => false
        | _ => true) = true := by decide +kernel
    intro x hx
    have := List.all_eq_true.mp h _ hx
    cases this

end Verif.Reactive

/-!
# Resource (C48)

`crates/vertigo/src/fetch/resource.rs`.
-/

namespace Verif.Fetch

/-- `resource.rs:8-12`. -/
inductive Resource (T : Type) where
  | loading
  | ready (v : T)
  | error (message : String)
  deriving DecidableEq

/-- `resource.rs:14-17`. -/
inductive ResourceError where
  | loading
  | error (message : String)

/-- `core::ops::ControlFlow`. -/
inductive ControlFlow (B C : Type) where
  | brk (b : B)
  | cont (c : C)

variable {T K L : Type}

/-- `resource.rs:24-26`. -/
def Resource.fromOutput (v : T) : Resource T := .ready v

/-- `resource.rs:29-35`. -/
def Resource.branch : Resource T → ControlFlow ResourceError T
  | .loading => .brk .loading
  | .error message => .brk (.error message)
  | .ready value => .cont value

/-- `resource.rs:39-44`. -/
def Resource.fromResidual : ResourceError → Resource T
  | .error message => .error message
  | .loading => .loading

/-- `resource.rs:48-54`. -/
def Resource.map (r : Resource T) (f : T → K) : Resource K :=
  match r with
  | .loading => .loading
  | .ready data => .ready (f data)
  | .error err => .error err

/-- `resource.rs:56-62`. -/
def Resource.refMap (r : Resource T) (f : T → K) : Resource K :=
  match r with
  | .loading => .loading
  | .ready data => .ready (f data)
  | .error err => .error err

/-- `resource.rs:65-73`; a clone is equal to its original. -/
def Resource.refClone : Resource T → Resource T
  | .loading => .loading
  | .ready data => .ready data
  | .error err => .error err

/-- `resource.rs:76-85`, for an equality `eqT` on the values. -/
def Resource.eq (eqT : T → T → Bool) : Resource T → Resource T → Bool
  | .loading, .loading => true
  | .error m1, .error m2 => m1 == m2
  | .ready v1, .ready v2 => eqT v1 v2
  | _, _ => false

/-- `let v = r?; k(v)` in a function that returns a `Resource`: the `?` operator is
`match branch(r) { Continue(v) => v, Break(e) => return from_residual(e) }`. -/
def Resource.question (r : Resource T) (k : T → Resource K) : Resource K :=
  match r.branch with
  | .cont v => k v
  | .brk e => Resource.fromResidual e

/-! ## Specification -/

/-- The state of a resource without its value. -/
inductive Status where
  | loading
  | ready
  | error (message : String)

/-- The status of a resource. -/
def Resource.status : Resource T → Status
  | .loading => .loading
  | .ready _ => .ready
  | .error m => .error m

/-- The value of a resource, if there is one. -/
def Resource.value? : Resource T → Option T
  | .ready v => some v
  | _ => none

/-- **C48** (map, ref_map).  The result is in the same state, with the same message, and its value is the
function applied to the value. -/
theorem C48_map (r : Resource T) (f : T → K) :
    (r.map f).status = r.status ∧ (r.map f).value? = r.value?.map f ∧
      (r.refMap f).status = r.status ∧ (r.refMap f).value? = r.value?.map f := by
  cases r <;> exact ⟨rfl, rfl, rfl, rfl⟩

/-- A resource is determined by its status and its value. -/
theorem Resource.ext_status (r s : Resource T) (h1 : r.status = s.status) (h2 : r.value? = s.value?) :
    r = s := by
  cases r <;> cases s <;> simp_all [Resource.status, Resource.value?]

/-- **C48** (laws).  Mapping the identity changes nothing, and mapping twice is mapping the composition. -/
theorem C48_map_laws (r : Resource T) (f : T → K) (g : K → L) :
    r.map id = r ∧ (r.map f).map g = r.map (g ∘ f) ∧ r.refClone = r := by
  cases r <;> exact ⟨rfl, rfl, rfl⟩

/-- **C48** (`?`).  The rest of the function runs exactly if the resource is ready, and then on its value;
otherwise the function returns the state of the resource. -/
theorem C48_question (r : Resource T) (k : T → Resource K) :
    (∀ v, r.value? = some v → r.question k = k v) ∧
      (r.value? = none → (r.question k).status = r.status ∧ (r.question k).value? = none) := by
  cases r <;> simp [Resource.question, Resource.branch, Resource.fromResidual, Resource.value?, Resource.status]

/-- **C48** (`?`, several times).  `?` can be nested in either way, and leaving a ready value alone is
neutral. -/
theorem C48_question_laws (r : Resource T) (k : T → Resource K) (l : K → Resource L) (v : T) :
    (r.question k).question l = r.question (fun x => (k x).question l) ∧
      r.question Resource.fromOutput = r ∧ (Resource.fromOutput v).question k = k v ∧
      r.map (fun x => x) = r.question (fun x => Resource.fromOutput x) := by
  cases r <;> exact ⟨rfl, rfl, rfl, rfl⟩

/-- **C48** (`==`).  Two resources are equal exactly if they are in the same state with equal contents. -/
theorem C48_eq (eqT : T → T → Bool) (h : ∀ a b, eqT a b = true ↔ a = b) (r s : Resource T) :
    r.eq eqT s = true ↔ r.status = s.status ∧ r.value? = s.value? := by
  cases r <;> cases s <;> simp [Resource.eq, Resource.status, Resource.value?, h]

example : (Resource.ready 3).map (· + 1) = .ready 4 ∧
    (Resource.error (T := Nat) "e").question (fun x => .ready (x + 1)) = .error "e" := by decide

end Verif.Fetch

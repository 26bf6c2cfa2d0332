import Verif.Cells.Model

/-! The invariant of the cells: which references can be in use while code of the program runs. -/
namespace Verif.Cells

/-- The references in use after `t`. -/
def still : List (Cell × Mode) → List Ev → List (Cell × Mode)
  | held, [] => held
  | held, .take c m :: t => still ((c, m) :: held) t
  | held, .give :: t => still held.tail t

theorem soundFor_append {S : Cell → Prop} : ∀ (t1 t2 : List Ev) (H : List (Cell × Mode)),
    soundFor S H t1 → soundFor S (still H t1) t2 → soundFor S H (t1 ++ t2)
  | [], _, _, _, h2 => h2
  | .take _ _ :: t, t2, _, h1, h2 => ⟨h1.1, soundFor_append t t2 _ h1.2 h2⟩
  | .give :: t, t2, _, h1, h2 => soundFor_append t t2 _ h1 h2

theorem still_append : ∀ (t1 t2 : List Ev) (H : List (Cell × Mode)), still H (t1 ++ t2) = still (still H t1) t2
  | [], _, _ => rfl
  | .take _ _ :: t, t2, _ => still_append t t2 _
  | .give :: t, t2, _ => still_append t t2 _

theorem sound_of_soundFor {S : Cell → Prop} (hS : ∀ c, S c) : ∀ (t : List Ev) (H : List (Cell × Mode)), soundFor S H t → sound H t
  | [], _, _ => trivial
  | .take _ _ :: t, _, h => ⟨h.1 (hS _), sound_of_soundFor hS t _ h.2⟩
  | .give :: t, _, h => sound_of_soundFor hS t _ h

variable {P : Habits}

structure Wf (s : St) : Prop where
  ready : ∀ p ∈ s.ready, p.1 < s.clients
  unplaced : ∀ m ∈ s.unplaced, m < s.markers

/-- The cell may be in use while code of the program runs. -/
def Fine (P : Habits) (s : St) : Cell → Prop
  | .seen g | .slot g | .resource g => g < s.clients ∧ (s.refreshing = true ∨ ∀ p ∈ s.ready, p.1 ≠ g)
  | .mounted m => s.refreshing = true ∧ m < s.markers ∧ m ∉ s.unplaced
  | .task t => t < s.tasks
  | .root => True
  | c => ¬ P.guards c

def HeldOk (P : Habits) (H : List (Cell × Mode)) (s : St) : Prop := ∀ h ∈ H, Fine P s h.1

def Free (H : List (Cell × Mode)) (c : Cell) : Prop := ∀ h ∈ H, h.1 ≠ c

def NoMounted (H : List (Cell × Mode)) : Prop := ∀ m, Free H (.mounted m)

/-- Cells used by acts inside of other uses. -/
def Cell.inner : Cell → Bool
  | .connect | .css | .commands | .callbacks => true
  | _ => false

inductive Calm : List Act → Prop where
  | nil : Calm []
  | use {c m acts} : c.inner = true → Calm acts → Calm (.hold c m [] :: acts)
  | shed {acts} : Calm acts → Calm (.shed :: acts)

def Act.simple : Act → Bool
  | .code | .shed | .layers | .clears | .edges | .first _ | .drop _ | .mark | .place _ _ | .spawn => true
  | _ => false

def Cell.isMounted : Cell → Bool
  | .mounted _ => true
  | _ => false

inductive Tame (P : Habits) : List (Cell × Mode) → St → Bool → Bool → List Act → Prop where
  | nil {H s rw st} : Tame P H s rw st []
  | calm {H s rw st c m body acts} : Calm body → (body ≠ [] → c.inner = false) → (P.guards c → Free H c) → Tame P H s rw st acts →
      Tame P H s rw st (.hold c m body :: acts)
  | hold {H s rw st rw' c m body acts} : (P.guards c → Free H c) → Fine P s c → (rw' = true → rw = true ∧ c.isMounted = false) →
      Tame P ((c, m) :: H) s rw' false body → Tame P H s rw st acts → Tame P H s rw st (.hold c m body :: acts)
  | simple {H s rw st a acts} : a.simple = true → Tame P H s rw st acts → Tame P H s rw st (a :: acts)
  | opt {H s rw st body acts} : Tame P H s rw st body → Tame P H s rw st acts → Tame P H s rw st (.opt body :: acts)
  | transaction {H s rw st body acts} : Tame P H s false false body → Tame P H s rw st acts → Tame P H s rw st (.transaction body :: acts)
  | rework {H s st acts} : Tame P H s true st acts → Tame P H s true st (.rework :: acts)
  | refreshes {H s rw acts} : Tame P H s rw true acts → Tame P H s rw true (.refreshes :: acts)

/-- What an execution keeps. -/
structure Grow (s s1 : St) : Prop where
  refreshing : s1.refreshing = s.refreshing
  clients : s.clients ≤ s1.clients
  ready : ∀ g, g < s.clients → (∀ p ∈ s.ready, p.1 ≠ g) → ∀ p ∈ s1.ready, p.1 ≠ g
  markers : s.markers ≤ s1.markers
  unplaced : ∀ m, m < s.markers → m ∉ s.unplaced → m ∉ s1.unplaced
  tasks : s.tasks ≤ s1.tasks

theorem Grow.refl (s : St) : Grow s s := ⟨rfl, Nat.le_refl _, fun _ _ h => h, Nat.le_refl _, fun _ _ h => h, Nat.le_refl _⟩

theorem Grow.trans {s1 s2 s3 : St} (h1 : Grow s1 s2) (h2 : Grow s2 s3) : Grow s1 s3 where
  refreshing := h2.refreshing.trans h1.refreshing
  clients := Nat.le_trans h1.clients h2.clients
  ready g hg h := h2.ready g (Nat.lt_of_lt_of_le hg h1.clients) (h1.ready g hg h)
  markers := Nat.le_trans h1.markers h2.markers
  unplaced m hm h := h2.unplaced m (Nat.lt_of_lt_of_le hm h1.markers) (h1.unplaced m hm h)
  tasks := Nat.le_trans h1.tasks h2.tasks

theorem Fine.grow {s s1 : St} {c : Cell} (hg : Grow s s1) (h : Fine P s c) : Fine P s1 c := by
  cases c <;> simp only [Fine] at h ⊢ <;> try exact h
  case seen g | resource g | slot g =>
    refine ⟨Nat.lt_of_lt_of_le h.1 hg.clients, ?_⟩
    rcases h.2 with h2 | h2
    · exact .inl (hg.refreshing.trans h2)
    · exact .inr (hg.ready g h.1 h2)
  case mounted m => exact ⟨hg.refreshing.trans h.1, Nat.lt_of_lt_of_le h.2.1 hg.markers, hg.unplaced m h.2.1 h.2.2⟩
  case task t => exact Nat.lt_of_lt_of_le h hg.tasks

theorem HeldOk.grow {H : List (Cell × Mode)} {s s1 : St} (hg : Grow s s1) (h : HeldOk P H s) : HeldOk P H s1 :=
  fun x hx => (h x hx).grow hg

theorem Tame.grow {H : List (Cell × Mode)} {s s1 : St} {rw st : Bool} {acts : List Act} (hg : Grow s s1) (h : Tame P H s rw st acts) :
    Tame P H s1 rw st acts := by
  induction h with
  | nil => exact .nil
  | calm h1 h2 h3 _ ih => exact .calm h1 h2 h3 (ih hg)
  | hold h1 h2 h3 _ _ ih1 ih2 => exact .hold h1 (h2.grow hg) h3 (ih1 hg) (ih2 hg)
  | simple h _ ih => exact .simple h (ih hg)
  | opt _ _ ih1 ih2 => exact .opt (ih1 hg) (ih2 hg)
  | transaction _ _ ih1 ih2 => exact .transaction (ih1 hg) (ih2 hg)
  | rework _ ih => exact .rework (ih hg)
  | refreshes _ ih => exact .refreshes (ih hg)

theorem Tame.append {H : List (Cell × Mode)} {s : St} {rw st : Bool} {l1 l2 : List Act} (h1 : Tame P H s rw st l1)
    (h2 : Tame P H s rw st l2) : Tame P H s rw st (l1 ++ l2) := by
  induction h1 with
  | nil => exact h2
  | calm h1 h3 h4 _ ih => exact .calm h1 h3 h4 (ih h2)
  | hold h1 h3 h4 h5 _ _ ih2 => exact .hold h1 h3 h4 h5 (ih2 h2)
  | simple h _ ih => exact .simple h (ih h2)
  | opt h _ _ ih2 => exact .opt h (ih2 h2)
  | transaction h _ _ ih2 => exact .transaction h (ih2 h2)
  | rework _ ih => exact .rework (ih h2)
  | refreshes _ ih => exact .refreshes (ih h2)

/-! ## The functions of the library are tame -/

theorem HeldOk.free {H : List (Cell × Mode)} {s : St} (h : HeldOk P H s) {c : Cell} (hc : ¬ Fine P s c) : Free H c := by
  intro x hx he
  exact hc (he ▸ h x hx)

/-- Cells that only the program itself can make unsafe. -/
def Cell.plain : Cell → Bool
  | .seen _ | .resource _ | .slot _ | .mounted _ | .task _ | .root => false
  | _ => true

theorem HeldOk.guard {H : List (Cell × Mode)} {s : St} (h : HeldOk P H s) {c : Cell} (hc : c.plain = true) (hp : P.guards c) : Free H c := by
  refine h.free ?_
  cases c <;> simp_all [Fine, Cell.plain]

theorem fine_of_plain {s : St} {c : Cell} (hc : c.plain = true) (h : ¬ P.guards c) : Fine P s c := by
  cases c <;> simp_all [Fine, Cell.plain]

section
variable {H : List (Cell × Mode)} {s : St} {rw st : Bool} {acts : List Act}

theorem tame_use (hk : HeldOk P H s) {c : Cell} {m : Mode} (hc : c.plain = true) (h : Tame P H s rw st acts) :
    Tame P H s rw st (use c m :: acts) := .calm .nil (fun h => (h rfl).elim) (hk.guard hc) h

theorem tame_use' {c : Cell} {m : Mode} (hc : Free H c) (h : Tame P H s rw st acts) :
    Tame P H s rw st (use c m :: acts) := .calm .nil (fun h => (h rfl).elim) (fun _ => hc) h

theorem tame_code : Tame P H s rw st [.code] := .simple rfl .nil

theorem tame_open {c : Cell} {m : Mode} {body : List Act} (hc : c.plain = true) (hg : ¬ P.guards c)
    (hb : Tame P ((c, m) :: H) s false false body) (h : Tame P H s rw st acts) : Tame P H s rw st (.hold c m body :: acts) :=
  .hold (rw' := false) (fun h => (hg h).elim) (fine_of_plain hc hg) (fun h => by cases h) hb h

theorem tame_touch (hk : HeldOk P H s) {c : Cell} {m : Mode} {a : Manners} (hc : c.plain = true) (hi : c.inner = false)
    (ha : P.guards c ↔ a ≠ .any) (h : Tame P H s rw st acts) : Tame P H s rw st (touch a c m :: acts) := by
  unfold touch
  cases a with
  | silent => exact .calm .nil (fun _ => hi) (hk.guard hc) h
  | sheds => exact .calm (.shed .nil) (fun _ => hi) (hk.guard hc) h
  | any => exact tame_open hc (fun h => (ha.1 h) rfl) tame_code h

theorem tame_suspend (hk : HeldOk P H s) (h : Tame P H s rw st acts) : Tame P H s rw st (suspend P :: acts) := by
  unfold suspend
  cases hs : P.suspense with
  | false => exact .calm .nil (fun _ => rfl) (hk.guard rfl) h
  | true => exact tame_open rfl (by simp [Habits.guards, hs]) (.simple rfl .nil) h

theorem tame_merge (hk : HeldOk P H s) (e : Nat) (h : Tame P H s rw st acts) : Tame P H s rw st (merge e :: acts) :=
  .calm (.use rfl (.use rfl (.use rfl .nil))) (fun _ => rfl) (hk.guard rfl) h

theorem tame_setParents (hk : HeldOk P H s) (h : Tame P H s rw st acts) : Tame P H s rw st (setParents ++ acts) :=
  tame_use hk rfl (.simple rfl h)

theorem tame_reportSet (hk : HeldOk P H s) (h : Tame P H s rw st acts) : Tame P H s rw st (reportSet ++ acts) :=
  tame_use hk rfl (.simple rfl (tame_use hk rfl h))

theorem tame_clearCache (hk : HeldOk P H s) (c : Nat) (h : Tame P H s rw st acts) : Tame P H s rw st (clearCache P c ++ acts) :=
  tame_use hk rfl (tame_touch hk rfl rfl Iff.rfl h)

theorem tame_edge (hk : HeldOk P H s) (e : Edge) (h : Tame P H s rw st acts) : Tame P H s rw st (edge P e ++ acts) := by
  cases e with
  | connect => exact tame_use hk rfl (tame_use hk rfl (.simple rfl (tame_use hk rfl (.simple rfl h))))
  | disconnect => exact tame_use hk rfl (.simple rfl h)
  | computed c => exact tame_clearCache hk c h
  | client g => exact tame_use hk rfl (tame_use hk rfl h)

theorem tame_after (hk : HeldOk P H s) (h : Tame P H s rw st acts) : Tame P H s rw st (after ++ acts) :=
  tame_use hk rfl (tame_use hk rfl (tame_use hk rfl (tame_use hk rfl (.simple rfl h))))

theorem tame_api (hk : HeldOk P H s) (a : Api) (ha : a.allowed P = true) : Tame P H s rw st (api P a) := by
  have hset : ∀ {rw st} v, Tame P H s rw st (touch (P.value v) (.value v) .write :: reportSet) := fun v =>
    tame_touch hk rfl rfl Iff.rfl (tame_use hk rfl (.simple rfl (tame_use hk rfl .nil)))
  cases a with
  | get v => exact tame_use hk rfl (tame_touch hk rfl rfl Iff.rfl .nil)
  | set v => exact .transaction (hset v) .nil
  | setCompare v =>
    exact .transaction (tame_touch hk rfl rfl Iff.rfl (.opt (tame_use hk rfl (.simple rfl (tame_use hk rfl .nil))) .nil)) .nil
  | change v =>
    exact .transaction (tame_use hk rfl (tame_touch hk rfl rfl Iff.rfl (.simple rfl (.transaction (hset v) .nil)))) .nil
  | transaction => exact .transaction tame_code .nil
  | computed c =>
    refine tame_use hk rfl (tame_touch hk rfl rfl Iff.rfl (.opt (.simple rfl ?_) .nil))
    exact tame_setParents hk (tame_touch hk rfl rfl Iff.rfl .nil)
  | subscribe k => exact .simple rfl .nil
  | unsubscribe g => exact tame_use hk rfl (tame_setParents hk (.simple rfl tame_code))
  | forget => exact tame_use hk rfl tame_code
  | off => exact tame_use hk rfl (tame_use hk rfl tame_code)
  | marker => exact .simple rfl (tame_use hk rfl (tame_use hk rfl (tame_use hk rfl .nil)))
  | add m k => exact .simple rfl (tame_use hk rfl .nil)
  | remove => exact tame_use hk rfl (tame_suspend hk (tame_use hk rfl tame_code))
  | suspend => exact tame_use hk rfl (tame_suspend hk .nil)
  | attr e => exact tame_use hk rfl (tame_merge hk e (tame_use hk rfl .nil))
  | suspense e =>
    have hs : P.suspense = true := ha
    have hg1 : ¬ P.guards (.merge e) := by simp [Habits.guards, hs]
    have hg2 : ¬ P.guards .suspense := by simp [Habits.guards, hs]
    have hk1 : HeldOk P ((.merge e, .write) :: H) s := by
      intro x hx
      rcases List.mem_cons.1 hx with rfl | hx
      · exact fine_of_plain (c := .merge e) rfl hg1
      · exact hk x hx
    have hk2 : HeldOk P ((.suspense, .write) :: (.merge e, .write) :: H) s := by
      intro x hx
      rcases List.mem_cons.1 hx with rfl | hx
      · exact fine_of_plain (c := .suspense) rfl hg2
      · exact hk1 x hx
    exact tame_open rfl hg1 (tame_open rfl hg2 (.simple rfl (tame_merge hk2 e (.simple rfl .nil))) (tame_suspend hk1 .nil)) .nil
  | emit => exact tame_use hk rfl tame_code
  | autoMap a => exact tame_touch hk rfl rfl Iff.rfl (.opt (.simple rfl (tame_touch hk rfl rfl Iff.rfl tame_code)) .nil)
  | spawn => exact .simple rfl (tame_use hk rfl (tame_use hk rfl .nil))
  | wake => exact tame_use hk rfl (tame_use hk rfl .nil)
  | handler g => exact tame_use hk rfl tame_code
  | browser => exact tame_use hk rfl (.transaction (tame_use hk rfl tame_code) (tame_use hk rfl .nil))
  | plain c m =>
    refine tame_use hk ?_ .nil
    cases c <;> simp_all [Api.allowed, Cell.quiet, Cell.plain]
  | cell n => exact tame_open rfl (by simpa [Habits.guards, Api.allowed] using ha) tame_code .nil
  | restart =>
    have hg : ¬ P.guards .root := by simpa [Habits.guards, Api.allowed] using ha
    exact .simple rfl (tame_use hk rfl (.hold (rw' := false) (fun h => (hg h).elim) trivial (fun h => by cases h) tame_code
      (tame_use hk rfl (tame_use hk rfl tame_code))))

theorem tame_run (hk : HeldOk P H s) {again : Bool} {g : Nat} (k : Kind) (hn : Free H (.seen g)) (hr : Free H (.resource g))
    (hs : Free H (.slot g)) (hf : g < s.clients ∧ (s.refreshing = true ∨ ∀ p ∈ s.ready, p.1 ≠ g)) (ha : again = true → rw = true)
    (h : Tame P H s rw st acts) : Tame P H s rw st (run P again g k ++ acts) := by
  have hres : ∀ {acts}, Tame P H s rw st acts → Tame P H s rw st (.hold (.resource g) .write [.code] :: acts) := fun h =>
    .hold (rw' := false) (fun _ => hr) hf (fun h => by cases h) tame_code h
  have hseen : ∀ {acts}, Tame P H s rw st acts → Tame P H s rw st (.hold (.seen g) .write [.code] :: acts) := fun h =>
    .hold (rw' := false) (fun _ => hn) hf (fun h => by cases h) tame_code h
  cases k with
  | plain => exact .simple rfl (hseen (.opt (.simple rfl (hres .nil)) h))
  | all => exact .simple rfl (.simple rfl (hres h))
  | handler =>
    refine .simple rfl ?_
    cases again with
    | false => exact tame_use hk rfl (tame_use' hr h)
    | true => exact tame_touch hk rfl rfl Iff.rfl (tame_use' hr h)
  | attr e =>
    exact .simple rfl (hseen (.opt (tame_use hk rfl (tame_merge hk e (tame_use hk rfl .nil))) (tame_use' hr h)))
  | value =>
    refine .simple rfl (hseen (.opt (.simple rfl ?_) (tame_use' hr h)))
    exact .hold (rw' := false) (fun _ => hs) hf (fun h => by cases h) tame_code .nil
  | list =>
    refine .simple rfl (hseen (.opt ?_ (tame_use' hr h)))
    cases again with
    | false => exact .hold (rw' := false) (fun _ => hs) hf (fun h => by cases h) tame_code .nil
    | true => exact .hold (rw' := true) (fun _ => hs) hf (fun _ => ⟨ha rfl, rfl⟩) (.rework .nil) .nil

theorem tame_mountBody {again : Bool} (k : Marker) (ha : again = true → rw = true) (h : Tame P H s rw st acts) :
    Tame P H s rw st (mountBody again k ++ acts) := by
  cases k with
  | value => exact .simple rfl h
  | list => exact .simple rfl h
  | fragment =>
    cases again with
    | false => exact .simple rfl h
    | true =>
      obtain rfl := ha rfl
      exact .rework h

end

/-! ## The invariant -/

theorem does_nil {s : St} {t : List Ev} {r : Option St} (h : Does P s [] t r) : t = [] ∧ ∀ s1, r = some s1 → s1 = s := by
  cases h with
  | done => exact ⟨rfl, fun _ h => by cases h; rfl⟩
  | stop => exact ⟨rfl, fun _ h => by cases h⟩

theorem does_calm {S : Cell → Prop} {s : St} {acts : List Act} {t : List Ev} {r : Option St} (h : Does P s acts t r) :
    Calm acts → ∀ H : List (Cell × Mode), (∀ x ∈ H, x.1.inner = false) → soundFor S H t ∧ ∀ s1, r = some s1 → still H t = H ∧ s1 = s := by
  induction h with
  | done => exact fun _ H _ => ⟨trivial, fun _ h => by cases h; exact ⟨rfl, rfl⟩⟩
  | stop => exact fun _ H _ => ⟨trivial, fun _ h => by cases h⟩
  | hold hb _ _ ih2 =>
    intro hc H hH
    cases hc with
    | use hi hc =>
      obtain ⟨rfl, he⟩ := does_nil hb
      obtain rfl := he _ rfl
      obtain ⟨h1, h2⟩ := ih2 hc H hH
      refine ⟨⟨fun _ x hx he => ?_, h1⟩, fun s1 hr => h2 s1 hr⟩
      have := hH x hx
      rw [he, hi] at this
      cases this
  | holdStop hb _ =>
    intro hc H hH
    cases hc with
    | use hi hc =>
      obtain ⟨rfl, _⟩ := does_nil hb
      refine ⟨⟨fun _ x hx he => ?_, trivial⟩, fun s1 hr => by cases hr⟩
      have := hH x hx
      rw [he, hi] at this
      cases this
  | shedEnd _ ih =>
    intro hc H hH
    cases hc with
    | shed hc => exact ih hc H hH
  | shed _ ih =>
    intro hc H hH
    cases hc with
    | shed hc => exact ih (.use rfl (.shed hc)) H hH
  | _ => intro hc; cases hc

structure Sane (P : Habits) (H : List (Cell × Mode)) (s : St) (rw st : Bool) : Prop where
  wf : Wf s
  held : HeldOk P H s
  rw : rw = true → s.refreshing = true ∧ NoMounted H
  st : st = true → s.refreshing = true ∧ NoMounted H ∧ ∀ p ∈ s.ready, Free H (.seen p.1) ∧ Free H (.resource p.1) ∧ Free H (.slot p.1)

theorem Sane.grow {H : List (Cell × Mode)} {s s1 : St} {rw st : Bool} (h : Sane P H s rw st) (hg : Grow s s1) (hw : Wf s1) :
    Sane P H s1 rw st where
  wf := hw
  held := h.held.grow hg
  rw hr := ⟨hg.refreshing.trans (h.rw hr).1, (h.rw hr).2⟩
  st hs := by
    obtain ⟨h1, h2, h3⟩ := h.st hs
    refine ⟨hg.refreshing.trans h1, h2, fun p hp => ⟨?_, ?_, ?_⟩⟩
    all_goals
      intro x hx he
      have hf := h.held x hx
      rw [he] at hf
      refine hg.ready p.1 hf.1 (fun q hq e => ?_) p hp rfl
    · exact (h3 q hq).1 x hx (by rw [he, e])
    · exact (h3 q hq).2.1 x hx (by rw [he, e])
    · exact (h3 q hq).2.2 x hx (by rw [he, e])

theorem soundFor_take {S : Cell → Prop} {H : List (Cell × Mode)} {c : Cell} {m : Mode} {t : List Ev} (h : S c → Free H c)
    (ht : soundFor S ((c, m) :: H) t) : soundFor S H (.take c m :: t) :=
  ⟨fun hc x hx he => (h hc x hx he).elim, ht⟩

/-- What holds of an execution. -/
def Right (P : Habits) (H : List (Cell × Mode)) (s : St) (t : List Ev) (r : Option St) : Prop :=
  soundFor P.guards H t ∧ ∀ s1, r = some s1 → still H t = H ∧ Grow s s1 ∧ Wf s1

theorem Right.weaken {H : List (Cell × Mode)} {s s' : St} {t : List Ev} {r : Option St} (h : Right P H s' t r) (hg : Grow s s') :
    Right P H s t r :=
  ⟨h.1, fun s1 hr => ⟨(h.2 s1 hr).1, hg.trans (h.2 s1 hr).2.1, (h.2 s1 hr).2.2⟩⟩

theorem Right.append {H : List (Cell × Mode)} {s s1 : St} {t1 t2 : List Ev} {r : Option St} (h1 : Right P H s t1 (some s1))
    (h2 : Right P H s t2 r) : Right P H s (t1 ++ t2) r := by
  obtain ⟨e, _, _⟩ := h1.2 s1 rfl
  refine ⟨soundFor_append _ _ _ h1.1 (by rw [e]; exact h2.1), fun s2 hr => ?_⟩
  rw [still_append, e]
  exact h2.2 s2 hr

theorem Right.take {H : List (Cell × Mode)} {s s1 s1' : St} {c : Cell} {m : Mode} {t1 t2 : List Ev} {r : Option St}
    (h : P.guards c → Free H c) (h1 : Right P ((c, m) :: H) s t1 (some s1)) (h2 : Right P H s1' t2 r) (hg : Grow s s1') :
    Right P H s (.take c m :: (t1 ++ .give :: t2)) r := by
  obtain ⟨e, _, _⟩ := h1.2 s1 rfl
  refine ⟨soundFor_take h (soundFor_append _ _ _ h1.1 (by rw [e]; exact h2.1)), fun s2 hr => ?_⟩
  have : still H (.take c m :: (t1 ++ .give :: t2)) = still H t2 := by
    change still ((c, m) :: H) (t1 ++ .give :: t2) = _
    rw [still_append, e]
    rfl
  rw [this]
  exact ⟨(h2.2 s2 hr).1, hg.trans (h2.2 s2 hr).2.1, (h2.2 s2 hr).2.2⟩

theorem inner_of_heldOk {H : List (Cell × Mode)} {s : St} (h : HeldOk P H s) : ∀ x ∈ H, x.1.inner = false := by
  rintro ⟨c, m⟩ hx
  have := h _ hx
  cases c <;> simp_all [Fine, Cell.inner, Habits.guards]

theorem Wf.level {s : St} (h : Wf s) (n : Nat) (b : Bool) : Wf { s with level := n, refreshing := b } := ⟨h.1, h.2⟩

theorem grow_level (s : St) (n : Nat) : Grow s { s with level := n } :=
  ⟨rfl, Nat.le_refl _, fun _ _ h => h, Nat.le_refl _, fun _ _ h => h, Nat.le_refl _⟩

/-- The start of the phase in which clients are refreshed. -/
theorem Sane.refresh {H : List (Cell × Mode)} {s : St} {rw st : Bool} (h : Sane P H s rw st) (hr : s.refreshing = false) (n : Nat) :
    Sane P H { s with level := n, refreshing := true } true true := by
  have hm : NoMounted H := by
    intro m x hx he
    have := h.held x hx
    rw [he] at this
    simp [Fine, hr] at this
  refine ⟨h.wf.level _ _, fun x hx => ?_, fun _ => ⟨rfl, hm⟩, fun _ => ⟨rfl, hm, fun p hp => ⟨fun x hx he => ?_, fun x hx he => ?_, fun x hx he => ?_⟩⟩⟩
  · have hf := h.held x hx
    obtain ⟨c, m⟩ := x
    cases c <;> simp_all [Fine]
  all_goals
    have hf := h.held x hx
    rw [he] at hf
    simp only [Fine, hr, Bool.false_eq_true, false_or] at hf
    exact hf.2 p hp rfl

/-- The end of it. -/
theorem Sane.calmDown {H : List (Cell × Mode)} {s s2 : St} {rw st : Bool} (h : Sane P H s rw st) (hr : s.refreshing = false) {n : Nat}
    (hg : Grow { s with level := n, refreshing := true } s2) (hw : Wf s2) :
    Grow s { s2 with refreshing := false } ∧ Sane P H { s2 with refreshing := false } rw st := by
  have hg2 : Grow s { s2 with refreshing := false } := ⟨hr.symm, hg.clients, hg.ready, hg.markers, hg.unplaced, hg.tasks⟩
  exact ⟨hg2, h.grow hg2 ⟨hw.1, hw.2⟩⟩

/-- More acts are allowed while clients are refreshed. -/
theorem Tame.rw {H : List (Cell × Mode)} {s : St} {rw st : Bool} {acts : List Act} (h : Tame P H s rw st acts) : Tame P H s true st acts := by
  induction h with
  | nil => exact .nil
  | calm h1 h2 h3 _ ih => exact .calm h1 h2 h3 ih
  | hold h1 h2 h3 h4 _ _ ih2 => exact .hold h1 h2 (fun h => ⟨rfl, (h3 h).2⟩) h4 ih2
  | simple h _ ih => exact .simple h ih
  | opt _ _ ih1 ih2 => exact .opt ih1 ih2
  | transaction h1 _ _ ih2 => exact .transaction h1 ih2
  | rework _ ih => exact .rework ih
  | refreshes _ ih => exact .refreshes ih

/-- The first run of a client. -/
theorem first_tame {H : List (Cell × Mode)} {s : St} {rw st : Bool} {k : Kind} (hs : Sane P H s rw st) :
    Grow s { s with clients := s.clients + 1 } ∧ Sane P H { s with clients := s.clients + 1 } false false ∧
      Tame P H { s with clients := s.clients + 1 } false false (firstRun P s.clients k) := by
  have hg : Grow s { s with clients := s.clients + 1 } :=
    ⟨rfl, Nat.le_succ _, fun _ _ h => h, Nat.le_refl _, fun _ _ h => h, Nat.le_refl _⟩
  have hs0 := hs.grow hg ⟨fun p hp => Nat.lt_succ_of_lt (hs.wf.1 p hp), hs.wf.2⟩
  refine ⟨hg, ⟨hs0.wf, hs0.held, fun h => Bool.noConfusion h, fun h => Bool.noConfusion h⟩, ?_⟩
  simp only [firstRun, List.append_assoc, List.cons_append, List.nil_append]
  refine tame_use hs0.held rfl (tame_use hs0.held rfl (tame_use hs0.held rfl (tame_run hs0.held k ?_ ?_ ?_ ?_ (fun h => by cases h) ?_)))
  · exact hs.held.free fun hf => Nat.lt_irrefl _ hf.1
  · exact hs.held.free fun hf => Nat.lt_irrefl _ hf.1
  · exact hs.held.free fun hf => Nat.lt_irrefl _ hf.1
  · exact ⟨Nat.lt_succ_self _, .inr fun p hp => Nat.ne_of_lt (hs.wf.1 p hp)⟩
  · exact tame_setParents hs0.held (tame_use hs0.held rfl .nil)

theorem does_right {s : St} {acts : List Act} {t : List Ev} {r : Option St} (h : Does P s acts t r) :
    ∀ (H : List (Cell × Mode)) (rw st : Bool), Sane P H s rw st → Tame P H s rw st acts → Right P H s t r := by
  induction h with
  | done => exact fun H rw st hs _ => ⟨trivial, fun s1 h => by cases h; exact ⟨rfl, .refl _, hs.wf⟩⟩
  | stop => exact fun H rw st hs _ => ⟨trivial, fun s1 h => by cases h⟩
  | @hold s s1 c m body acts t1 t2 r hb _ ih1 ih2 =>
    intro H rw st hs ht
    cases ht with
    | calm hc hi hf ht =>
      obtain ⟨h1, h2⟩ : soundFor P.guards ((c, m) :: H) t1 ∧ ∀ s2, some s1 = some s2 → still ((c, m) :: H) t1 = (c, m) :: H ∧ s2 = s := by
        cases body with
        | nil =>
          obtain ⟨rfl, he⟩ := does_nil hb
          exact ⟨trivial, fun s2 h => ⟨rfl, (by cases h; exact he _ rfl)⟩⟩
        | cons a l =>
          refine does_calm hb hc _ (fun x hx => ?_)
          rcases List.mem_cons.1 hx with rfl | hx
          · exact hi (by simp)
          · exact inner_of_heldOk hs.held x hx
      obtain ⟨e, rfl⟩ := h2 _ rfl
      exact Right.take hf ⟨h1, fun s2 h => by cases h; exact ⟨e, .refl _, hs.wf⟩⟩ (ih2 H rw st hs ht) (.refl _)
    | @hold _ _ _ _ rw' _ _ _ _ hf hfine hrw hbody ht =>
      have hs' : Sane P ((c, m) :: H) s rw' false := by
        refine ⟨hs.wf, fun x hx => ?_, fun h => ?_, fun h => by cases h⟩
        · rcases List.mem_cons.1 hx with rfl | hx
          · exact hfine
          · exact hs.held x hx
        · obtain ⟨h1, h2⟩ := hrw h
          refine ⟨(hs.rw h1).1, fun n x hx he => ?_⟩
          rcases List.mem_cons.1 hx with rfl | hx
          · simp only at he
            rw [he] at h2
            cases h2
          · exact (hs.rw h1).2 n x hx he
      have h1 := ih1 _ _ _ hs' hbody
      obtain ⟨_, hg, hw⟩ := h1.2 s1 rfl
      exact Right.take hf h1 (ih2 H rw st (hs.grow hg hw) (ht.grow hg)) hg
    | simple h => cases h
  | @holdStop s c m body acts t hb ih =>
    intro H rw st hs ht
    cases ht with
    | calm hc hi hf ht =>
      refine ⟨soundFor_take hf ?_, fun s1 h => by cases h⟩
      cases body with
      | nil =>
        obtain ⟨rfl, _⟩ := does_nil hb
        trivial
      | cons a l =>
        refine (does_calm hb hc _ (fun x hx => ?_)).1
        rcases List.mem_cons.1 hx with rfl | hx
        · exact hi (by simp)
        · exact inner_of_heldOk hs.held x hx
    | @hold _ _ _ _ rw' _ _ _ _ hf hfine hrw hbody ht =>
      have hs' : Sane P ((c, m) :: H) s rw' false := by
        refine ⟨hs.wf, fun x hx => ?_, fun h => ?_, fun h => by cases h⟩
        · rcases List.mem_cons.1 hx with rfl | hx
          · exact hfine
          · exact hs.held x hx
        · obtain ⟨h1, h2⟩ := hrw h
          refine ⟨(hs.rw h1).1, fun n x hx he => ?_⟩
          rcases List.mem_cons.1 hx with rfl | hx
          · simp only at he
            rw [he] at h2
            cases h2
          · exact (hs.rw h1).2 n x hx he
      exact ⟨soundFor_take hf (ih _ _ _ hs' hbody).1, fun s1 h => by cases h⟩
    | simple h => cases h
  | codeEnd _ ih | shedEnd _ ih | layersEnd _ ih | clearsEnd _ ih | edgesEnd _ ih =>
    intro H rw st hs ht
    cases ht with
    | simple _ ht => exact ih H rw st hs ht
  | codeCall a ha _ ih =>
    intro H rw st hs ht
    exact ih H rw st hs ((tame_api hs.held a ha).append ht)
  | reworkEnd _ ih =>
    intro H rw st hs ht
    cases ht with
    | rework ht => exact ih H _ st hs ht
    | simple h => cases h
  | reworkCall a ha _ ih =>
    intro H rw st hs ht
    exact ih H rw st hs ((tame_api hs.held a ha).append ht)
  | @reworkPlace s acts t r m k hm hu _ ih =>
    intro H rw st hs ht
    cases ht with
    | rework ht =>
      obtain ⟨h1, h2⟩ := hs.rw rfl
      refine ih H true st hs ?_
      simp only [insert, List.append_assoc, List.cons_append, List.nil_append]
      refine tame_use hs.held rfl (tame_use hs.held rfl (tame_mountBody k (fun _ => rfl) ?_))
      exact .hold (rw' := false) (fun _ => h2 m) ⟨h1, hm, hu⟩ (fun h => by cases h) tame_code (tame_suspend hs.held (.rework ht))
    | simple h => cases h
  | shed _ ih =>
    intro H rw st hs ht
    exact ih H rw st hs (tame_use hs.held rfl ht)
  | layers e _ ih =>
    intro H rw st hs ht
    exact ih H rw st hs (.simple rfl (tame_merge hs.held e ht))
  | optSkip _ ih =>
    intro H rw st hs ht
    cases ht with
    | opt _ ht => exact ih H rw st hs ht
    | simple h => cases h
  | opt _ ih =>
    intro H rw st hs ht
    cases ht with
    | opt hb ht => exact ih H rw st hs (hb.append ht)
    | simple h => cases h
  | clears c _ ih =>
    intro H rw st hs ht
    exact ih H rw st hs (tame_clearCache hs.held c ht)
  | edges e _ ih =>
    intro H rw st hs ht
    exact ih H rw st hs (tame_edge hs.held e ht)
  | panic _ =>
    intro H rw st hs ht
    exact ⟨soundFor_take (hs.held.guard rfl) trivial, fun s1 h => by cases h⟩
  | @inner s s1 body acts t1 t2 r hr _ hl _ ih1 ih2 =>
    intro H rw st hs ht
    cases ht with
    | transaction hb ht =>
      have hs0 : Sane P H { s with level := s.level + 1 } rw st := hs.grow (grow_level _ _) ⟨hs.wf.1, hs.wf.2⟩
      have hs' : Sane P H { s with level := s.level + 1 } false false := ⟨hs0.wf, hs0.held, fun h => Bool.noConfusion h, fun h => Bool.noConfusion h⟩
      have h1 := ih1 H false false hs'
        (tame_use hs'.held rfl ((hb.grow (grow_level _ _)).append (tame_use hs'.held rfl (tame_use hs'.held rfl .nil))))
      obtain ⟨_, hg, hw⟩ := h1.2 s1 rfl
      have hg2 : Grow s { s1 with level := s1.level - 1 } := ((grow_level _ _).trans hg).trans (grow_level _ _)
      exact Right.append (h1.weaken (grow_level _ _)) ((ih2 H rw st (hs.grow hg2 ⟨hw.1, hw.2⟩) (ht.grow hg2)).weaken hg2)
    | simple h => cases h
  | @bodyStop s body acts t hr _ ih =>
    intro H rw st hs ht
    cases ht with
    | transaction hb ht =>
      have hs0 : Sane P H { s with level := s.level + 1 } rw st := hs.grow (grow_level _ _) ⟨hs.wf.1, hs.wf.2⟩
      have hs' : Sane P H { s with level := s.level + 1 } false false := ⟨hs0.wf, hs0.held, fun h => Bool.noConfusion h, fun h => Bool.noConfusion h⟩
      exact (ih H false false hs'
        (tame_use hs'.held rfl ((hb.grow (grow_level _ _)).append (tame_use hs'.held rfl (tame_use hs'.held rfl .nil))))).weaken (grow_level _ _)
    | simple h => cases h
  | @outer s s1 s2 body acts t1 t2 t3 r hr _ hl _ _ ih1 ih2 ih3 =>
    intro H rw st hs ht
    cases ht with
    | transaction hb ht =>
      have hs0 : Sane P H { s with level := s.level + 1 } rw st := hs.grow (grow_level _ _) ⟨hs.wf.1, hs.wf.2⟩
      have hs' : Sane P H { s with level := s.level + 1 } false false := ⟨hs0.wf, hs0.held, fun h => Bool.noConfusion h, fun h => Bool.noConfusion h⟩
      have h1 := ih1 H false false hs'
        (tame_use hs'.held rfl ((hb.grow (grow_level _ _)).append (tame_use hs'.held rfl (tame_use hs'.held rfl .nil))))
      obtain ⟨_, hg, hw⟩ := h1.2 s1 rfl
      have hg1 : Grow s s1 := (grow_level _ _).trans hg
      have hs1 := hs.grow hg1 hw
      have hr1 : s1.refreshing = false := hg1.refreshing.trans hr
      have h2 := ih2 H true true (hs1.refresh hr1 0) (.refreshes .nil)
      obtain ⟨e2, hg2, hw2⟩ := h2.2 s2 rfl
      obtain ⟨hg3, hs3⟩ := hs1.calmDown hr1 hg2 hw2
      have h3 := ih3 H rw st hs3 (tame_after hs3.held ((ht.grow hg1).grow hg3))
      refine Right.append (h1.weaken (grow_level _ _)) ?_
      refine ⟨soundFor_append _ _ _ h2.1 (by rw [e2]; exact h3.1), fun s4 h4 => ?_⟩
      rw [still_append, e2]
      exact ⟨(h3.2 s4 h4).1, (hg1.trans hg3).trans (h3.2 s4 h4).2.1, (h3.2 s4 h4).2.2⟩
    | simple h => cases h
  | @refreshStop s s1 body acts t1 t2 hr _ hl _ ih1 ih2 =>
    intro H rw st hs ht
    cases ht with
    | transaction hb ht =>
      have hs0 : Sane P H { s with level := s.level + 1 } rw st := hs.grow (grow_level _ _) ⟨hs.wf.1, hs.wf.2⟩
      have hs' : Sane P H { s with level := s.level + 1 } false false := ⟨hs0.wf, hs0.held, fun h => Bool.noConfusion h, fun h => Bool.noConfusion h⟩
      have h1 := ih1 H false false hs'
        (tame_use hs'.held rfl ((hb.grow (grow_level _ _)).append (tame_use hs'.held rfl (tame_use hs'.held rfl .nil))))
      obtain ⟨_, hg, hw⟩ := h1.2 s1 rfl
      have hg1 : Grow s s1 := (grow_level _ _).trans hg
      have hs1 := hs.grow hg1 hw
      have h2 := ih2 H true true (hs1.refresh (hg1.refreshing.trans hr) 0) (.refreshes .nil)
      exact Right.append (h1.weaken (grow_level _ _)) ⟨h2.1, fun s4 h4 => by cases h4⟩
    | simple h => cases h
  | refreshesEnd _ ih =>
    intro H rw st hs ht
    cases ht with
    | refreshes ht => exact ih H rw _ hs ht
    | simple h => cases h
  | @refreshes s acts t r g k hg _ ih =>
    intro H rw st hs ht
    cases ht with
    | refreshes ht =>
      obtain ⟨h1, h2, h3⟩ := hs.st rfl
      have hs' : Sane P H s true true := ⟨hs.wf, hs.held, fun _ => ⟨h1, h2⟩, hs.st⟩
      refine ih H true true hs' ?_
      simp only [nextRun, List.append_assoc, List.cons_append, List.nil_append]
      refine tame_use hs.held rfl (tame_use hs.held rfl (tame_run hs.held k (h3 _ hg).1 (h3 _ hg).2.1 (h3 _ hg).2.2 ⟨hs.wf.1 _ hg, .inl h1⟩ (fun _ => rfl) ?_))
      exact tame_setParents hs.held (tame_use hs.held rfl (.simple rfl (.refreshes ht.rw)))
    | simple h => cases h
  | @first s s1 k acts t1 t2 r _ _ ih1 ih2 =>
    intro H rw st hs ht
    have hfirst := first_tame (k := k) hs
    cases ht with
    | simple _ ht =>
      have h1 := ih1 H false false hfirst.2.1 hfirst.2.2
      obtain ⟨_, hg, hw⟩ := h1.2 s1 rfl
      have hg1 : Grow s { s1 with ready := (s.clients, k) :: s1.ready } := by
        have hg0 := hfirst.1.trans hg
        refine ⟨hg0.refreshing, hg0.clients, fun g hlt hn p hp => ?_, hg0.markers, hg0.unplaced, hg0.tasks⟩
        rcases List.mem_cons.1 hp with rfl | hp
        · exact fun he => absurd he (Nat.ne_of_gt hlt)
        · exact hg0.ready g hlt hn p hp
      have hw1 : Wf { s1 with ready := (s.clients, k) :: s1.ready } := by
        refine ⟨fun p hp => ?_, hw.2⟩
        rcases List.mem_cons.1 hp with rfl | hp
        · exact Nat.lt_of_lt_of_le (Nat.lt_succ_self _) hg.clients
        · exact hw.1 p hp
      exact Right.append (h1.weaken hfirst.1) ((ih2 H rw st (hs.grow hg1 hw1) (ht.grow hg1)).weaken hg1)
  | @firstStop s k acts t _ ih =>
    intro H rw st hs ht
    have hfirst := first_tame (k := k) hs
    exact (ih H false false hfirst.2.1 hfirst.2.2).weaken hfirst.1
  | @drop s acts t r g _ ih =>
    intro H rw st hs ht
    cases ht with
    | simple _ ht =>
      have hg : Grow s { s with ready := s.ready.filter fun p => p.1 ≠ g } :=
        ⟨rfl, Nat.le_refl _, fun _ _ h p hp => h p (List.mem_filter.1 hp).1, Nat.le_refl _, fun _ _ h => h, Nat.le_refl _⟩
      exact (ih H rw st (hs.grow hg ⟨fun p hp => hs.wf.1 p (List.mem_filter.1 hp).1, hs.wf.2⟩) (ht.grow hg)).weaken hg
  | @mark s acts t r _ ih =>
    intro H rw st hs ht
    cases ht with
    | simple _ ht =>
      have hg : Grow s { s with markers := s.markers + 1, unplaced := s.markers :: s.unplaced } :=
        ⟨rfl, Nat.le_refl _, fun _ _ h => h, Nat.le_succ _, fun m hm h hc => (List.mem_cons.1 hc).elim (Nat.ne_of_lt hm) h, Nat.le_refl _⟩
      refine (ih H rw st (hs.grow hg ⟨hs.wf.1, fun m hm => ?_⟩) (ht.grow hg)).weaken hg
      rcases List.mem_cons.1 hm with rfl | hm
      · exact Nat.lt_succ_self _
      · exact Nat.lt_succ_of_lt (hs.wf.2 m hm)
  | @place s acts t r m k hm _ ih =>
    intro H rw st hs ht
    cases ht with
    | simple _ ht =>
      have hg : Grow s { s with unplaced := s.unplaced.filter (· ≠ m) } :=
        ⟨rfl, Nat.le_refl _, fun _ _ h => h, Nat.le_refl _, fun _ _ h hc => h (List.mem_filter.1 hc).1, Nat.le_refl _⟩
      have hs' : Sane P H { s with unplaced := s.unplaced.filter (· ≠ m) } rw st :=
        hs.grow hg ⟨hs.wf.1, fun m' h => hs.wf.2 m' (List.mem_filter.1 h).1⟩
      refine (ih H rw st hs' ?_).weaken hg
      simp only [insert, List.append_assoc, List.cons_append, List.nil_append]
      refine tame_use hs'.held rfl (tame_use hs'.held rfl (tame_mountBody k (fun h => by cases h) ?_))
      refine tame_use' ?_ (tame_suspend hs'.held (ht.grow hg))
      exact hs.held.free fun hf => hf.2.2 hm
  | @spawn s acts t r _ ih =>
    intro H rw st hs ht
    cases ht with
    | simple _ ht =>
      have hg : Grow s { s with tasks := s.tasks + 1 } :=
        ⟨rfl, Nat.le_refl _, fun _ _ h => h, Nat.le_refl _, fun _ _ h => h, Nat.le_succ _⟩
      refine (ih H rw st (hs.grow hg ⟨hs.wf.1, hs.wf.2⟩) (tame_use' ?_ (ht.grow hg))).weaken hg
      exact hs.held.free fun hf => Nat.lt_irrefl _ hf

end Verif.Cells

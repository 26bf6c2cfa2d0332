import Verif.Cells.Proof

/-! C71: what the browser and the program do never makes two references to the contents of a cell that exclude each other. -/
namespace Verif.Cells
variable {P : Habits}

theorem session_right {s : St} {t : List Ev} (h : Session P s t) : Wf s → s.refreshing = false → soundFor P.guards [] t := by
  have hsane : ∀ {s : St}, Wf s → Sane P [] s false false := fun hw =>
    ⟨hw, fun _ h => (List.not_mem_nil h).elim, fun h => Bool.noConfusion h, fun h => Bool.noConfusion h⟩
  have hentry : ∀ {s : St} (e : Entry), Wf s → e.exists s → Tame P [] s false false (entry e) := by
    intro s e hw he
    have hk : HeldOk P [] s := (hsane hw).held
    cases e with
    | start =>
      refine .simple rfl (tame_use hk rfl (.simple rfl ?_))
      refine .hold (rw' := false) (fun _ _ h => by cases h) trivial (fun h => by cases h) tame_code ?_
      exact tame_use hk rfl (.simple rfl (tame_use hk rfl (tame_use hk rfl tame_code)))
    | event => exact tame_use hk rfl (.transaction (tame_use hk rfl tame_code) (tame_use hk rfl .nil))
    | once =>
      refine tame_use hk rfl (.transaction (tame_use hk rfl (.simple rfl ?_)) (tame_use hk rfl .nil))
      exact .calm (.use rfl .nil) (fun _ => rfl) (hk.guard rfl) tame_code
    | task t =>
      refine tame_use hk rfl (.transaction (tame_use hk rfl ?_) (tame_use hk rfl .nil))
      refine .hold (rw' := false) (fun _ _ h => by cases h) he (fun h => by cases h) tame_code ?_
      exact .calm (.use rfl .nil) (fun _ => rfl) (hk.guard rfl) tame_code
  induction h with
  | nil => exact fun _ _ => trivial
  | stop he hd => exact fun hw _ => (does_right hd [] false false (hsane hw) (hentry _ hw he)).1
  | cons he hd _ ih =>
    intro hw hr
    have h1 := does_right hd [] false false (hsane hw) (hentry _ hw he)
    obtain ⟨e, hg, hw1⟩ := h1.2 _ rfl
    exact soundFor_append _ _ _ h1.1 (by rw [e]; exact ih hw1 (hg.refreshing.trans hr))

theorem wf_init : Wf St.init := ⟨fun _ h => (List.not_mem_nil h).elim, fun _ h => (List.not_mem_nil h).elim⟩

/-- For every program, whatever its closures, callbacks, futures, connections, renderings and drops call, at every moment of every execution:
the rule of references holds for every cell but those that the program itself makes unsafe (`Habits.guards`): a value, computed, map or
handler whose contents call the library when they are cloned, compared, hashed or dropped; the class and the state of suspense if the
suspense attribute is used; cells of `struct_mut` used by the program; the root if `start_app` is called by the program.
Missing for the full property: these cells. For them it does not hold: `C71_unguarded_violated`. -/
theorem C71_cells_partial (P : Habits) (t : List Ev) (h : Session P St.init t) : soundFor P.guards [] t := session_right h wf_init rfl

/-- For a program that does none of this no two references exclude each other. -/
theorem C71_plain_partial (P : Habits) (hP : P.Plain) (t : List Ev) (h : Session P St.init t) : sound [] t := by
  refine sound_of_soundFor (S := P.guards) (fun c => ?_) t [] (C71_cells_partial P t h)
  cases c
  case value v => exact hP.value v
  case cache c => exact hP.computed c
  case handler g => exact hP.handler g
  case map a => exact hP.map a
  case suspense => exact hP.suspense
  case merge e => exact hP.suspense
  case own n => exact hP.cells
  case root => exact hP.restart
  all_goals trivial

/-! ## Executions, for examples and counterexamples -/

/-- There is an execution of the acts that comes to a moment at which `H'` are in use. -/
def Comes (P : Habits) (H : List (Cell × Mode)) (s : St) (acts : List Act) (H' : List (Cell × Mode)) : Prop :=
  ∃ t, Does P s acts t none ∧ still H t = H'

/-- There is an execution of the acts from `s` to `s1`. -/
def Ends (P : Habits) (s : St) (acts : List Act) (s1 : St) : Prop := ∃ t, Does P s acts t (some s1) ∧ ∀ H, still H t = H

section
variable {H H' : List (Cell × Mode)} {s s1 s2 : St} {acts body : List Act} {c : Cell} {m : Mode}

theorem Comes.now : Comes P H s acts H := ⟨[], .stop, rfl⟩

theorem Comes.inside (h : Comes P ((c, m) :: H) s body H') : Comes P H s (.hold c m body :: acts) H' := by
  obtain ⟨t, h1, h2⟩ := h
  exact ⟨_, .holdStop h1, h2⟩

theorem Comes.over (hb : Ends P s body s1) (h : Comes P H s1 acts H') : Comes P H s (.hold c m body :: acts) H' := by
  obtain ⟨t1, h1, h2⟩ := hb
  obtain ⟨t2, h3, h4⟩ := h
  refine ⟨_, .hold h1 h3, ?_⟩
  change still ((c, m) :: H) (t1 ++ .give :: t2) = _
  rw [still_append, h2]
  exact h4

theorem Comes.use (h : Comes P H s acts H') : Comes P H s (.hold c m [] :: acts) H' := .over ⟨[], .done, fun _ => rfl⟩ h

theorem Comes.call (a : Api) (ha : a.allowed P = true) (h : Comes P H s (api P a ++ .code :: acts) H') : Comes P H s (.code :: acts) H' := by
  obtain ⟨t, h1, h2⟩ := h
  exact ⟨t, .codeCall a ha h1, h2⟩

theorem Comes.skip (h : Comes P H s acts H') : Comes P H s (.code :: acts) H' := by
  obtain ⟨t, h1, h2⟩ := h
  exact ⟨t, .codeEnd h1, h2⟩

theorem Comes.opt (h : Comes P H s (body ++ acts) H') : Comes P H s (.opt body :: acts) H' := by
  obtain ⟨t, h1, h2⟩ := h
  exact ⟨t, .opt h1, h2⟩

theorem Comes.clears (x : Nat) (h : Comes P H s (clearCache P x ++ .clears :: acts) H') : Comes P H s (.clears :: acts) H' := by
  obtain ⟨t, h1, h2⟩ := h
  exact ⟨t, .clears x h1, h2⟩

theorem Comes.edgesEnd (h : Comes P H s acts H') : Comes P H s (.edges :: acts) H' := by
  obtain ⟨t, h1, h2⟩ := h
  exact ⟨t, .edgesEnd h1, h2⟩

theorem Comes.within (hr : s.refreshing = false)
    (h : Comes P H { s with level := s.level + 1 } (.hold .tx .write [] :: body ++ [.hold .reads .read [], .hold .tx .write []]) H') :
    Comes P H s (.transaction body :: acts) H' := by
  obtain ⟨t, h1, h2⟩ := h
  exact ⟨t, .bodyStop hr h1, h2⟩

theorem Comes.refresh (hr : s.refreshing = false)
    (hb : Ends P { s with level := s.level + 1 } (.hold .tx .write [] :: body ++ [.hold .reads .read [], .hold .tx .write []]) s1) (hl : s1.level - 1 = 0)
    (h : Comes P H { s1 with level := 0, refreshing := true } [.refreshes] H') : Comes P H s (.transaction body :: acts) H' := by
  obtain ⟨t1, h1, h2⟩ := hb
  obtain ⟨t2, h3, h4⟩ := h
  exact ⟨_, .refreshStop hr h1 hl h3, by rw [still_append, h2, h4]⟩

theorem Comes.client (g : Nat) (k : Kind) (hg : (g, k) ∈ s.ready) (h : Comes P H s (nextRun P g k ++ .refreshes :: acts) H') :
    Comes P H s (.refreshes :: acts) H' := by
  obtain ⟨t, h1, h2⟩ := h
  exact ⟨t, .refreshes g k hg h1, h2⟩

theorem Comes.first {k : Kind} (h : Comes P H { s with clients := s.clients + 1 } (firstRun P s.clients k) H') :
    Comes P H s (.first k :: acts) H' := by
  obtain ⟨t, h1, h2⟩ := h
  exact ⟨t, .firstStop h1, h2⟩

theorem Comes.made {k : Kind} (hb : Ends P { s with clients := s.clients + 1 } (firstRun P s.clients k) s1)
    (h : Comes P H { s1 with ready := (s.clients, k) :: s1.ready } acts H') : Comes P H s (.first k :: acts) H' := by
  obtain ⟨t1, h1, h2⟩ := hb
  obtain ⟨t2, h3, h4⟩ := h
  exact ⟨_, .first h1 h3, by rw [still_append, h2, h4]⟩

theorem Comes.mark (h : Comes P H { s with markers := s.markers + 1, unplaced := s.markers :: s.unplaced } acts H') :
    Comes P H s (.mark :: acts) H' := by
  obtain ⟨t, h1, h2⟩ := h
  exact ⟨t, .mark h1, h2⟩

theorem Comes.place {n : Nat} {k : Marker} (hn : n ∈ s.unplaced)
    (h : Comes P H { s with unplaced := s.unplaced.filter (· ≠ n) } (insert P false n k ++ acts) H') : Comes P H s (.place n k :: acts) H' := by
  obtain ⟨t, h1, h2⟩ := h
  exact ⟨t, .place n k hn h1, h2⟩

theorem Comes.again {n : Nat} {k : Marker} (hn : n < s.markers) (hu : n ∉ s.unplaced)
    (h : Comes P H s (insert P true n k ++ .rework :: acts) H') : Comes P H s (.rework :: acts) H' := by
  obtain ⟨t, h1, h2⟩ := h
  exact ⟨t, .reworkPlace n k hn hu h1, h2⟩

theorem Ends.nil : Ends P s [] s := ⟨[], .done, fun _ => rfl⟩

theorem Ends.over (hb : Ends P s body s1) (h : Ends P s1 acts s2) : Ends P s (.hold c m body :: acts) s2 := by
  obtain ⟨t1, h1, h2⟩ := hb
  obtain ⟨t2, h3, h4⟩ := h
  refine ⟨_, .hold h1 h3, fun H => ?_⟩
  change still ((c, m) :: H) (t1 ++ .give :: t2) = _
  rw [still_append, h2]
  exact h4 H

theorem Ends.use (h : Ends P s acts s1) : Ends P s (.hold c m [] :: acts) s1 := .over .nil h

theorem Ends.skip (h : Ends P s acts s1) : Ends P s (.code :: acts) s1 := by
  obtain ⟨t, h1, h2⟩ := h
  exact ⟨t, .codeEnd h1, h2⟩

theorem Ends.call (a : Api) (ha : a.allowed P = true) (h : Ends P s (api P a ++ .code :: acts) s1) : Ends P s (.code :: acts) s1 := by
  obtain ⟨t, h1, h2⟩ := h
  exact ⟨t, .codeCall a ha h1, h2⟩

theorem Ends.optSkip (h : Ends P s acts s1) : Ends P s (.opt body :: acts) s1 := by
  obtain ⟨t, h1, h2⟩ := h
  exact ⟨t, .optSkip h1, h2⟩

theorem Ends.opt (h : Ends P s (body ++ acts) s1) : Ends P s (.opt body :: acts) s1 := by
  obtain ⟨t, h1, h2⟩ := h
  exact ⟨t, .opt h1, h2⟩

theorem Ends.edgesEnd (h : Ends P s acts s1) : Ends P s (.edges :: acts) s1 := by
  obtain ⟨t, h1, h2⟩ := h
  exact ⟨t, .edgesEnd h1, h2⟩

theorem Ends.mark (h : Ends P { s with markers := s.markers + 1, unplaced := s.markers :: s.unplaced } acts s1) :
    Ends P s (.mark :: acts) s1 := by
  obtain ⟨t, h1, h2⟩ := h
  exact ⟨t, .mark h1, h2⟩

theorem Ends.place {n : Nat} {k : Marker} (hn : n ∈ s.unplaced)
    (h : Ends P { s with unplaced := s.unplaced.filter (· ≠ n) } (insert P false n k ++ acts) s1) : Ends P s (.place n k :: acts) s1 := by
  obtain ⟨t, h1, h2⟩ := h
  exact ⟨t, .place n k hn h1, h2⟩

theorem Ends.made {k : Kind} (hb : Ends P { s with clients := s.clients + 1 } (firstRun P s.clients k) s1)
    (h : Ends P { s1 with ready := (s.clients, k) :: s1.ready } acts s2) : Ends P s (.first k :: acts) s2 := by
  obtain ⟨t1, h1, h2⟩ := hb
  obtain ⟨t2, h3, h4⟩ := h
  exact ⟨_, .first h1 h3, fun H => by rw [still_append, h2, h4]⟩

theorem Ends.clearsEnd (h : Ends P s acts s1) : Ends P s (.clears :: acts) s1 := by
  obtain ⟨t, h1, h2⟩ := h
  exact ⟨t, .clearsEnd h1, h2⟩

theorem ends_inner (hr : s.refreshing = false)
    (hb : Ends P { s with level := s.level + 1 } (.hold .tx .write [] :: body ++ [.hold .reads .read [], .hold .tx .write []]) s1)
    (hl : s1.level - 1 ≠ 0) (h : Ends P { s1 with level := s1.level - 1 } acts s2) : Ends P s (.transaction body :: acts) s2 := by
  obtain ⟨t1, h1, h2⟩ := hb
  obtain ⟨t2, h3, h4⟩ := h
  exact ⟨_, .inner hr h1 hl h3, fun H => by rw [still_append, h2, h4]⟩

/-- Subscriptions to which nothing happens. -/
theorem ends_plain : Ends P s (firstRun P n .plain) s :=
  .use (.use (.use (.skip (.over (.skip .nil) (.optSkip (.use (.edgesEnd (.use .nil))))))))

theorem ends_handler : Ends P s (firstRun P n .handler) s :=
  .use (.use (.use (.skip (.use (.use (.use (.edgesEnd (.use .nil))))))))

theorem Comes.clients : ∀ (n : Nat) (s : St), (∀ s1 : St, s1.clients = s.clients + n → s1.refreshing = s.refreshing → s1.level = s.level →
    Comes P H s1 (.code :: acts) H') → Comes P H s (.code :: acts) H'
  | 0, s, h => h s rfl rfl rfl
  | n + 1, s, h => by
    refine .call (.subscribe .plain) rfl (.made ends_plain ?_)
    exact Comes.clients n _ fun s1 h1 h2 h3 => h s1 (by rw [h1]; exact Nat.add_right_comm _ _ _) h2 h3

end

/-- Two references that exclude each other. -/
def Clash (c : Cell) : List (Cell × Mode) → Prop
  | [] => False
  | (c', m) :: H => (c' = c ∧ ∃ h ∈ H, h.1 = c ∧ ¬ (h.2 = .read ∧ m = .read)) ∨ Clash c H

theorem no_clash {c : Cell} : ∀ (t : List Ev) (H : List (Cell × Mode)), soundFor (· = c) H t → ¬ Clash c H → ¬ Clash c (still H t)
  | [], _, _, h => h
  | .take c' m :: t, H, hs, h => by
    refine no_clash t _ hs.2 ?_
    rintro (⟨he, x, hx, hc, hn⟩ | hc)
    · exact hn (hs.1 he x hx (hc.trans he.symm))
    · exact h hc
  | .give :: t, H, hs, h => by
    refine no_clash t _ hs ?_
    cases H with
    | nil => exact h
    | cons x H => exact fun hc => h (.inr hc)

theorem clash {c : Cell} {H' : List (Cell × Mode)} (h : Comes P [] St.init (entry .start) H') (hc : Clash c H') :
    ∃ t, Session P St.init t ∧ ¬ soundFor (· = c) [] t := by
  obtain ⟨t, h1, h2⟩ := h
  exact ⟨t, .stop (e := .start) trivial h1, fun hs => no_clash t [] hs id (h2 ▸ hc)⟩

/-! ## The full property is violated -/

/-- For every other cell there is a program of this kind and an execution with two references that exclude each other. -/
theorem C71_unguarded_violated (P : Habits) (c : Cell) (h : ¬ P.guards c) : ∃ t, Session P St.init t ∧ ¬ soundFor (· = c) [] t := by
  cases c with
  | value v =>
    -- `set` drops the old contents, whose `Drop` reads the value
    have hv : P.value v = .any := by simpa [Habits.guards] using h
    refine clash (H' := [(.value v, .read), (.value v, .write)]) (.call (.set v) rfl (.within rfl (.use ?_))) ?_
    · simp only [touch, hv]
      exact .inside (.call (.get v) rfl (.use (.inside .now)))
    · exact .inl ⟨rfl, _, List.mem_cons_self .., rfl, by simp⟩
  | cache x =>
    -- the cache is cleared, and the `Drop` of what was in it reads the computed
    have hv : P.computed x = .any := by simpa [Habits.guards] using h
    refine clash (H' := [(.cache x, .read), (.cache x, .write)]) (.call (.computed x) rfl (.use (.over (s1 := St.init) ?_ (.opt (.skip (.use
      (.edgesEnd (.over (s1 := St.init) ?_ ?_)))))))) ?_
    · rw [hv]; exact .skip .nil
    · rw [hv]; exact .skip .nil
    · refine .call (.set 0) rfl (.within rfl (.use (.over (s1 := { St.init with level := 1 }) ?_ (.use (.clears x (.use ?_))))))
      · cases P.value 0 with
        | silent => exact .nil
        | sheds => exact ⟨[], .shedEnd .done, fun _ => rfl⟩
        | any => exact .skip .nil
      · simp only [touch, hv]
        refine .inside (.call (.computed x) rfl (.use (.inside .now)))
    · exact .inl ⟨rfl, _, List.mem_cons_self .., rfl, by simp⟩
  | handler g =>
    -- a new function replaces the old one, and the `Drop` of what it has captured calls the handler
    have hv : P.handler g = .any := by simpa [Habits.guards] using h
    refine clash (H' := [(.handler g, .read), (.handler g, .write)]) (.clients g St.init fun s1 h1 h2 h3 => ?_) ?_
    · have h1 : s1.clients = g := h1.trans (Nat.zero_add g)
      refine .call (.subscribe .handler) rfl (.made ends_handler (.call .transaction rfl (.refresh h2 (.use (.skip (.use (.use .nil)))) ?_ ?_)))
      · simp [h3, St.init]
      · refine .client g .handler (by simp [h1]) (.use (.use (.skip ?_)))
        simp only [if_true, touch, hv]
        exact .inside (.call (.handler g) rfl (.inside .now))
    · exact .inl ⟨rfl, _, List.mem_cons_self .., rfl, by simp⟩
  | map a =>
    -- the `Hash` of a key reads the map
    have hv : P.map a = .any := by simpa [Habits.guards] using h
    refine clash (H' := [(.map a, .read), (.map a, .write)]) (.call (.autoMap a) rfl (.over (s1 := St.init) ?_ (.opt (.skip ?_)))) ?_
    · rw [hv]; exact .skip .nil
    · simp only [touch, hv]
      exact .inside (.call (.autoMap a) rfl (by simp only [api, touch, hv]; exact .inside .now))
    · exact .inl ⟨rfl, _, List.mem_cons_self .., rfl, by simp⟩
  | suspense =>
    -- the function of the suspense attribute makes an element
    have hv : P.suspense = true := by simpa [Habits.guards] using h
    refine clash (H' := [(.suspense, .write), (.suspense, .write), (.merge 0, .write)]) (.call (.suspense 0) hv (.inside (.inside
      (.call .suspend rfl (.use (.inside .now)))))) ?_
    exact .inl ⟨rfl, _, List.mem_cons_self .., rfl, by simp⟩
  | merge e =>
    have hv : P.suspense = true := by simpa [Habits.guards] using h
    refine clash (H' := [(.merge e, .write), (.suspense, .write), (.merge e, .write)]) (.call (.suspense e) hv (.inside (.inside (.skip
      (.inside .now))))) ?_
    exact .inl ⟨rfl, (.merge e, .write), by simp, rfl, by simp⟩
  | own n =>
    have hv : P.cells = true := by simpa [Habits.guards] using h
    refine clash (H' := [(.own n, .write), (.own n, .write)]) (.call (.cell n) hv (.inside (.call (.cell n) hv (.inside .now)))) ?_
    exact .inl ⟨rfl, _, List.mem_cons_self .., rfl, by simp⟩
  | root =>
    -- the old root is dropped, and a `Drop` starts another one
    have hv : P.restart = true := by simpa [Habits.guards] using h
    refine clash (H' := [(.root, .write), (.root, .write)]) (.call .restart hv (.skip (.use (.inside (.call .restart hv (.skip (.use
      (.inside .now)))))))) ?_
    exact .inl ⟨rfl, _, List.mem_cons_self .., rfl, by simp⟩
  | _ => exact (h trivial).elim

theorem sound_append {H : List (Cell × Mode)} : ∀ (t1 t2 : List Ev) (H : List (Cell × Mode)), sound H (t1 ++ t2) →
    sound H t1 ∧ sound (still H t1) t2
  | [], _, _, h => ⟨trivial, h⟩
  | .take _ _ :: t, t2, _, h => ⟨⟨h.1, (sound_append (H := H) t t2 _ h.2).1⟩, (sound_append (H := H) t t2 _ h.2).2⟩
  | .give :: t, t2, _, h => sound_append (H := H) t t2 _ h

/-- At the end of an execution the references of its beginning are in use. -/
theorem balanced {s : St} {acts : List Act} {t : List Ev} {r : Option St} (h : Does P s acts t r) :
    ∀ s1, r = some s1 → ∀ H, still H t = H := by
  have two : ∀ {t1 t2 : List Ev}, (∀ H, still H t1 = H) → (∀ H, still H t2 = H) → ∀ H, still H (t1 ++ t2) = H := by
    intro t1 t2 h1 h2 H
    rw [still_append, h1, h2]
  induction h with
  | done => exact fun _ _ _ => rfl
  | stop => intro _ h; cases h
  | hold _ _ ih1 ih2 =>
    intro s1 hr H
    rw [still, still_append, ih1 _ rfl]
    exact ih2 s1 hr H
  | inner _ _ _ _ ih1 ih2 => exact fun s1 hr => two (ih1 _ rfl) (ih2 s1 hr)
  | outer _ _ _ _ _ ih1 ih2 ih3 => exact fun s1 hr => two (ih1 _ rfl) (two (ih2 _ rfl) (ih3 s1 hr))
  | first _ _ ih1 ih2 => exact fun s1 hr => two (ih1 _ rfl) (ih2 s1 hr)
  | holdStop | panic | bodyStop | refreshStop | firstStop => intro _ h; cases h
  | codeEnd _ ih | codeCall _ _ _ ih | reworkEnd _ ih | reworkCall _ _ _ ih | reworkPlace _ _ _ _ _ ih | shedEnd _ ih | shed _ ih
  | layersEnd _ ih | layers _ _ ih | optSkip _ ih | opt _ ih | clearsEnd _ ih | clears _ _ ih | edgesEnd _ ih | edges _ _ ih
  | refreshesEnd _ ih | refreshes _ _ _ _ ih | drop _ _ ih | mark _ ih | place _ _ _ _ ih | spawn _ ih => exact ih

/-- A cell in use is used again by one of the acts. -/
theorem again_unsound {c : Cell} {m : Mode} {body : List Act} {s : St} {acts : List Act} {t : List Ev} {r : Option St}
    (h : Does P s acts t r) : (∃ s1, r = some s1) → Act.hold c m body ∈ acts → ∀ H, (c, .write) ∈ H → ¬ sound H t := by
  induction h with
  | done => intro _ h; cases h
  | stop => rintro ⟨_, h⟩; cases h
  | hold h1 _ _ ih2 =>
    intro hr hm H hH hs
    rcases List.mem_cons.1 hm with he | hm
    · cases he
      exact absurd (hs.1 _ hH rfl).1 (by simp)
    · have h2 := (sound_append (H := H) _ _ _ hs.2).2
      rw [balanced h1 _ rfl] at h2
      exact ih2 hr hm H hH h2
  | inner _ h1 _ _ _ ih2 =>
    intro hr hm H hH hs
    have h2 := (sound_append (H := H) _ _ _ hs).2
    rw [balanced h1 _ rfl] at h2
    exact ih2 hr (by simpa using hm) H hH h2
  | outer _ h1 _ h2 _ _ _ ih3 =>
    intro hr hm H hH hs
    have h3 := (sound_append (H := H) _ _ _ hs).2
    rw [balanced h1 _ rfl] at h3
    have h4 := (sound_append (H := H) _ _ _ h3).2
    rw [balanced h2 _ rfl] at h4
    exact ih3 hr (List.mem_append_right _ (by simpa using hm)) H hH h4
  | first h1 _ _ ih2 =>
    intro hr hm H hH hs
    have h2 := (sound_append (H := H) _ _ _ hs).2
    rw [balanced h1 _ rfl] at h2
    exact ih2 hr (by simpa using hm) H hH h2
  | holdStop | panic | bodyStop | refreshStop | firstStop => rintro ⟨_, h⟩; cases h
  | codeEnd _ ih | reworkEnd _ ih | shedEnd _ ih | layersEnd _ ih | optSkip _ ih | clearsEnd _ ih | edgesEnd _ ih
  | refreshesEnd _ ih | drop _ _ ih | mark _ ih => exact fun hr hm => ih hr (by simpa using hm)
  | codeCall _ _ _ ih | reworkCall _ _ _ ih | reworkPlace _ _ _ _ _ ih | clears _ _ ih | edges _ _ ih | refreshes _ _ _ _ ih =>
    exact fun hr hm => ih hr (List.mem_append_right _ hm)
  | opt _ ih | place _ _ _ _ ih => exact fun hr hm => ih hr (List.mem_append_right _ (by simpa using hm))
  | shed _ ih => exact fun hr hm => ih hr (List.mem_cons_of_mem _ hm)
  | layers _ _ ih => exact fun hr hm => ih hr (List.mem_cons_of_mem _ (List.mem_cons_of_mem _ hm))
  | spawn _ ih => exact fun hr hm => ih hr (List.mem_cons_of_mem _ (by simpa using hm))

/-- Every call of `suspense` that returns breaks the rule, whatever the function of the program does. -/
theorem C71_suspense_violated (P : Habits) (s s1 : St) (e : Nat) (t : List Ev) (h : Does P s (api P (.suspense e)) t (some s1)) :
    ¬ sound [] t := by
  intro hs
  cases h with
  | hold hb _ =>
    have h1 := (sound_append (H := []) _ _ _ hs.2).1
    cases hb with
    | hold hb _ =>
      have h2 := (sound_append (H := []) _ _ _ h1.2).1
      exact again_unsound hb ⟨_, rfl⟩ (List.mem_cons_of_mem _ (List.mem_cons_self ..)) _ (List.mem_cons_of_mem _ (List.mem_cons_self ..)) h2

/-! ## Examples -/

/-- A program that does nothing unusual: its values contain values. -/
def plainHabits : Habits := ⟨fun _ => .sheds, fun _ => .silent, fun _ => .silent, fun _ => .silent, false, false, false⟩

theorem plainHabits_plain : plainHabits.Plain where
  value _ := Manners.noConfusion
  computed _ := Manners.noConfusion
  handler _ := Manners.noConfusion
  map _ := Manners.noConfusion
  suspense := rfl
  cells := rfl
  restart := rfl

/-- A list is mounted (client 0, marker 0); one of its items is a value element (client 1, marker 1). -/
def mountedList : St := ⟨0, false, 2, [(0, .list), (1, .value)], 2, [], 0⟩

theorem ends_mounted {rest : List Act} {s : St} (h : Ends plainHabits mountedList rest s) : Ends plainHabits St.init (.code :: rest) s := by
  refine .call .marker rfl (.mark (.use (.use (.use ?_))))
  refine .call (.add 0 .list) rfl (.place (by simp [St.init]) (.use (.use ?_)))
  refine .made (s1 := ⟨0, false, 2, [(1, .value)], 2, [], 0⟩) ?_ (.use (.use (.use (.skip h))))
  refine .use (.use (.use (.skip (.over (.skip .nil) (.opt (.over ?_ (.use (.use (.edgesEnd (.use .nil))))))))))
  refine .call .marker rfl (.mark (.use (.use (.use ?_))))
  refine .call (.add 1 .value) rfl (.place (by simp [St.init]) (.use (.use ?_)))
  refine .made (s1 := ⟨0, false, 2, [], 2, [], 0⟩) ?_ (.use (.use (.use (.skip .nil))))
  exact .use (.use (.use (.skip (.over (.skip .nil) (.opt (.skip (.over (.skip .nil) (.use (.use (.edgesEnd (.use .nil)))))))))))

/-- A value is set; the list is refreshed; the item is moved; the node that was mounted before is dropped, and its `Drop` reads the value:
then the cells of the list, of the marker and of the value are in use. -/
example : ∃ t, Session plainHabits St.init t ∧ still [] t = [(.value 0, .read), (.mounted 1, .write), (.slot 0, .write)] := by
  obtain ⟨t1, h1, h2⟩ : Ends plainHabits St.init (entry .start) mountedList := by
    exact ends_mounted (.use (.skip (.over (.skip .nil) (.use (.skip (.use (.use (.skip .nil))))))))
  obtain ⟨t2, h3, h4⟩ : Comes plainHabits [] mountedList (entry .event) [(.value 0, .read), (.mounted 1, .write), (.slot 0, .write)] := by
    refine .use (.refresh rfl (s1 := { mountedList with level := 1 }) (.use (.use (.call (.set 0) rfl ?_))) rfl ?_)
    · exact ends_inner rfl (s1 := { mountedList with level := 2 }) (.use (.over ⟨_, .shed (.hold .done (.shedEnd .done)), fun _ => rfl⟩ (.use (.clearsEnd (.use (.use (.use .nil)))))))
        (by decide) (.skip (.use (.use .nil)))
    · refine .client 0 .list (by simp [mountedList]) (.use (.use (.skip (.over (.skip .nil) (.opt (.inside ?_))))))
      refine .again (n := 1) (k := .value) (by decide) (by simp [mountedList]) (.use (.use ?_))
      refine .made (s1 := { mountedList with refreshing := true, clients := 3 }) ?_ (.inside (.call (.get 0) rfl (.use (.inside .now))))
      exact .use (.use (.use (.skip (.over (.skip .nil) (.opt (.skip (.over (.skip .nil) (.use (.use (.edgesEnd (.use .nil)))))))))))
  exact ⟨_, .cons (e := .start) trivial h1 (.stop (e := .event) trivial h3), by rw [still_append, h2, h4]⟩

end Verif.Cells

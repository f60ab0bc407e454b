import Verif.Proofs.Verdict

/-!
# The parts of a grammar that matter to its parser
-/

namespace Pango.Parse

open Pango Pango.Spec

variable {V T : Type} {g g' : Grammar V T}

theorem SameReachable.reachable (h : SameReachable g g') {v : V} : Reachable g v ↔ Reachable g' v := by
  constructor
  · intro hv
    induction hv with
    | start => rw [h.1]; exact .start
    | step h1 h2 h3 ih => exact .step ih ((h.2 _ _ h1).1 h2) h3
  · intro hv
    induction hv with
    | start => rw [← h.1]; exact .start
    | step h1 h2 h3 ih => exact .step ih ((h.2 _ _ ih).2 h2) h3

theorem SameReachable.symm (h : SameReachable g g') : SameReachable g' g :=
  ⟨h.1.symm, fun v β hv => (h.2 v β (SameReachable.reachable h |>.2 hv)).symm⟩

/-- All variables of the string can be reached. -/
def AllReachable (g : Grammar V T) (α : List (Sym V T)) : Prop := ∀ v, .var v ∈ α → Reachable g v

theorem _root_.Pango.Spec.Reachable.body {v : V} {β : Body V T} (h : Reachable g v) (hr : (v, β) ∈ g.rules) :
    AllReachable g β := fun _ hw => .step h hr hw

theorem Nullable.same (h : SameReachable g g') {α : List (Sym V T)} (hn : Nullable g α) (ha : AllReachable g α) :
    Nullable g' α := by
  induction hn with
  | nil => exact .nil
  | eps _ ih => exact .eps (ih fun v hv => ha v (List.mem_cons_of_mem _ hv))
  | @var v β α hr _ _ ih1 ih2 =>
    have hv := ha v (by simp)
    exact .var ((h.2 _ _ hv).1 hr) (ih1 (hv.body hr)) (ih2 fun v hv => ha v (List.mem_cons_of_mem _ hv))

theorem Starts.same (h : SameReachable g g') {t : T} {α : List (Sym V T)} (hn : Starts g t α)
    (ha : AllReachable g α) : Starts g' t α := by
  induction hn with
  | term => exact .term
  | eps _ ih => exact .eps (ih fun v hv => ha v (List.mem_cons_of_mem _ hv))
  | @inVar v β α hr _ ih =>
    have hv := ha v (by simp)
    exact .inVar ((h.2 _ _ hv).1 hr) (ih (hv.body hr))
  | @skip v β α hr hn _ ih =>
    have hv := ha v (by simp)
    exact .skip ((h.2 _ _ hv).1 hr) (hn.same h (hv.body hr)) (ih fun v hv => ha v (List.mem_cons_of_mem _ hv))

theorem Nullable.mono (h : ∀ r ∈ g.rules, r ∈ g'.rules) {α : List (Sym V T)} (hn : Nullable g α) : Nullable g' α := by
  induction hn with
  | nil => exact .nil
  | eps _ ih => exact .eps ih
  | var hr _ _ ih1 ih2 => exact .var (h _ hr) ih1 ih2

theorem Starts.mono (h : ∀ r ∈ g.rules, r ∈ g'.rules) {t : T} {α : List (Sym V T)} (hn : Starts g t α) :
    Starts g' t α := by
  induction hn with
  | term => exact .term
  | eps _ ih => exact .eps ih
  | inVar hr _ ih => exact .inVar (h _ hr) ih
  | skip hr hn _ ih => exact .skip (h _ hr) (hn.mono h) ih

theorem Fol.mono (h : ∀ r ∈ g.rules, r ∈ g'.rules) {t : T} {v : V} (hf : Fol g t v) : Fol g' t v := by
  induction hf with
  | here hr hs => exact .here (h _ hr) (hs.mono h)
  | up hr hn _ ih => exact .up (h _ hr) (hn.mono h) ih

theorem SurelyFollowed.mono (h : ∀ r ∈ g.rules, r ∈ g'.rules) {v : V} (hf : SurelyFollowed g v) :
    SurelyFollowed g' v := by
  rcases hf with ⟨t, hf⟩ | ⟨w, pre, x, post, hr⟩ | ⟨w, pre, hr, w', pre', x, post, hr'⟩
  · exact .inl ⟨t, inFollow_iff.2 ((inFollow_iff.1 hf).mono h)⟩
  · exact .inr (.inl ⟨w, pre, x, post, h _ hr⟩)
  · exact .inr (.inr ⟨w, pre, h _ hr, w', pre', x, post, h _ hr'⟩)

theorem Followable.mono (h : ∀ r ∈ g.rules, r ∈ g'.rules) {v : V} (hf : Followable g v) : Followable g' v := by
  induction hf with
  | behind hf =>
    obtain ⟨w, pre, x, post, hr⟩ := hf
    exact .behind ⟨w, pre, x, post, h _ hr⟩
  | last hr _ ih => exact .last (h _ hr) ih

/-- If the other rules do not use the variables that can be reached, FOLLOW is the same. -/
theorem Fol.same (h : SameReachable g g') (hs : Separate g) {t : T} {v : V} (hf : Fol g t v) (hv : Reachable g v) :
    Fol g' t v := by
  induction hf with
  | @here h' v pre rest hr h1 =>
    have hh := hs _ _ v hr (by simp) hv
    exact .here ((h.2 _ _ hh).1 hr) (h1.same h fun w hw => hh.body hr w (by simp [hw]))
  | @up h' v pre rest hr h1 _ ih =>
    have hh := hs _ _ v hr (by simp) hv
    exact .up ((h.2 _ _ hh).1 hr) (h1.same h fun w hw => hh.body hr w (by simp [hw])) (ih hh)

theorem Followed.same (h : SameReachable g g') (hs : Separate g) {v : V} (hf : Followed g v) (hv : Reachable g v) :
    Followed g' v := by
  obtain ⟨w, pre, x, post, hr⟩ := hf
  exact ⟨w, pre, x, post, (h.2 _ _ (hs _ _ v hr (by simp) hv)).1 hr⟩

theorem SurelyFollowed.same (h : SameReachable g g') (hs : Separate g) {v : V} (hf : SurelyFollowed g v)
    (hv : Reachable g v) : SurelyFollowed g' v := by
  rcases hf with ⟨t, hf⟩ | hf | ⟨w, pre, hr, hf⟩
  · exact .inl ⟨t, inFollow_iff.2 ((inFollow_iff.1 hf).same h hs hv)⟩
  · exact .inr (.inl (Followed.same h hs hf hv))
  · have hw := hs _ _ v hr (by simp) hv
    exact .inr (.inr ⟨w, pre, (h.2 _ _ hw).1 hr, Followed.same h hs hf hw⟩)

theorem Followable.same (h : SameReachable g g') (hs : Separate g) {v : V} (hf : Followable g v) :
    Reachable g v → Followable g' v := by
  induction hf with
  | behind hf => exact fun hv => .behind (Followed.same h hs hf hv)
  | @last w v pre hr _ ih =>
    intro hv
    have hw := hs _ _ v hr (by simp) hv
    exact .last ((h.2 _ _ hw).1 hr) (ih hw)

theorem Occurs.same (h : SameReachable g g') (hs : Separate g) {v : V} (hf : Occurs g v) (hv : Reachable g v) :
    Occurs g' v := by
  obtain ⟨w, β, hr, hm⟩ := hf
  exact ⟨w, β, (h.2 _ _ (hs _ _ v hr hm hv)).1 hr, hm⟩

/-- Only items of variables that can be reached are looked at. -/
theorem _root_.Pango.Spec.Viable.reachable {γ : List (Sym V T)} {p : V × Item V T} (h : Viable g γ p) :
    Reachable g p.1 := by
  induction h with
  | start _ _ => exact .start
  | @expand γ h v i j β hv hr _ _ ih =>
    obtain ⟨pre, post, h1, _⟩ := hr
    exact .step ih (Viable_ok hv).rule (by simp [h1])
  | read _ _ ih => exact ih

theorem _root_.Pango.Spec.Viable.same (h : SameReachable g g') {γ : List (Sym V T)} {p : V × Item V T}
    (hv : Viable g γ p) : Viable g' γ p := by
  induction hv with
  | start hr hf =>
    have hr := (h.2 _ _ .start).1 hr
    rw [h.1] at hr ⊢
    exact .start hr hf
  | @expand γ x v i j β hv hr hβ hf ih =>
    have hx := hv.reachable
    obtain ⟨pre, post, h1, _⟩ := id hr
    exact .expand ih hr ((h.2 _ _ (.step hx (Viable_ok hv).rule (by simp [h1]))).1 hβ) hf
  | read _ ha ih => exact .read ih ha

/-- The grammars have the same FOLLOW sets for the variables that can be reached. -/
def SameFollow (g g' : Grammar V T) : Prop := ∀ v t, Reachable g v → (InFollow g v (.term t) ↔ InFollow g' v (.term t))

theorem _root_.Pango.Spec.Needs.same (h : SameReachable g g') (hf : SameFollow g g') {entry : Prop}
    {γ : List (Sym V T)} {p : V × Item V T} {k : Option T} (hn : Needs g entry γ p k) : Needs g' entry γ p k := by
  cases hn with
  | shift h1 h2 => exact .shift (h1.same h) h2
  | reduce h1 h2 h3 => exact .reduce (h1.same h) h2 ((hf _ _ h1.reachable).1 h3)
  | accept h1 h2 h3 =>
    have := h1.same h
    rw [h.1] at this ⊢
    exact .accept this h2 h3

variable [DecidableEq V] [DecidableEq T]

omit [DecidableEq V] [DecidableEq T] in
theorem _root_.Pango.Spec.Closure.reachable {P : V × Item V T → Prop} (hP : ∀ p, P p → Reachable g p.1 ∧ ItemOk g p)
    {p : V × Item V T} (h : Closure g P p) : Reachable g p.1 := by
  induction h with
  | given h => exact (hP _ h).1
  | @expand h v i j β hc hr _ _ ih =>
    obtain ⟨pre, post, h1, _⟩ := hr
    exact .step ih (hc.ok fun p hp => (hP p hp).2).rule (by simp [h1])

omit [DecidableEq V] [DecidableEq T] in
theorem _root_.Pango.Spec.Closure.same (h : SameReachable g g') {P : V × Item V T → Prop}
    (hP : ∀ p, P p → Reachable g p.1 ∧ ItemOk g p) {p : V × Item V T} (hc : Closure g P p) : Closure g' P p := by
  induction hc with
  | given h => exact .given h
  | @expand x v i j β hc hr hβ hf ih =>
    have hx := hc.reachable hP
    obtain ⟨pre, post, h1, _⟩ := id hr
    exact .expand ih hr ((h.2 _ _ (.step hx (hc.ok fun p hp => (hP p hp).2).rule (by simp [h1]))).1 hβ) hf

/-- The states of an automaton have items of variables that can be reached only. -/
theorem CfsmOk.reachable {c : Cfsm V T} (ok : CfsmOk g c) {s : CState V T} (hs : s ∈ c.states) {p : V × Item V T}
    (hp : p ∈ s.items) : Reachable g p.1 := by
  obtain ⟨γ, hγ⟩ := ok.reached hs
  exact ((reached_viable ok hγ p).1 hp).reachable

/-- An automaton of one grammar is an automaton of the other. -/
theorem CfsmOk.same (h : SameReachable g g') {c : Cfsm V T} (ok : CfsmOk g c) : CfsmOk g' ⟨g', c.states⟩ where
  grammar := rfl
  ids := ok.ids
  sets s hs := ⟨(ok.sets s hs).nodup, fun p hp =>
    have := (ok.sets s hs).ok p hp
    ⟨(h.2 _ _ (ok.reachable hs hp)).1 this.rule, this.le, this.noEps⟩⟩
  start := by
    obtain ⟨s, h1, h2⟩ := ok.start
    refine ⟨s, h1, fun p => (h2 p).trans ?_⟩
    have hst : ∀ p, Start g p ↔ Start g' p := by
      intro p
      unfold Start
      rw [← h.1]
      constructor
      · rintro ⟨β, hr, hp⟩; exact ⟨β, (h.2 _ _ .start).1 hr, hp⟩
      · rintro ⟨β, hr, hp⟩; exact ⟨β, (h.2 _ _ .start).2 hr, hp⟩
    rw [← Closure.congr hst]
    have hP : ∀ p, Start g p → Reachable g p.1 ∧ ItemOk g p := by
      rintro p ⟨β, hr, rfl⟩
      exact ⟨.start, .fresh hr⟩
    refine ⟨fun hc => hc.same h hP, fun hc => hc.same (SameReachable.symm h) ?_⟩
    rintro p ⟨β, hr, rfl⟩
    exact ⟨(SameReachable.reachable h).1 .start, .fresh ((h.2 _ _ .start).1 hr)⟩
  keys := ok.keys
  read := ok.read
  dest s hs x d hd := by
    obtain ⟨s', h1, h2⟩ := ok.dest s hs x d hd
    refine ⟨s', h1, fun p => (h2 p).trans ?_⟩
    have hP : ∀ p, Next s.items x p → Reachable g p.1 ∧ ItemOk g p := by
      intro p hp
      refine ⟨?_, ?_⟩
      · obtain ⟨h', i, hm, _, rfl⟩ := hp
        exact (ok.reachable hs hm : Reachable g h')
      · obtain ⟨h', i, hm, hx, rfl⟩ := hp
        exact ((ok.sets s hs).ok _ hm).advance hx
    refine ⟨fun hc => hc.same h hP, fun hc => hc.same (SameReachable.symm h) fun p hp => ?_⟩
    obtain ⟨h3, h4⟩ := hP p hp
    exact ⟨(SameReachable.reachable h).1 h3, (h.2 _ _ h3).1 h4.rule, h4.le, h4.noEps⟩
  parent := ok.parent

variable [TerminalEq T]

/-- A table of one grammar is a table of the other. -/
theorem SlrOk.same (h : SameReachable g g') (hf : SameFollow g g') {c : Cfsm V T} {entry : Prop} {tbl : Table V T}
    (ok : SlrOk g c entry tbl) : SlrOk g' ⟨g', c.states⟩ entry tbl := by
  have hask : ∀ s ∈ c.states, ∀ p ∈ s.items, ∀ k a, Ask g entry s p k a ↔ Ask g' entry s p k a := by
    intro s hs p hp k a
    have hr := ok.cfsm.reachable hs hp
    constructor
    · intro ha
      cases ha with
      | shift h1 h2 => exact .shift h1 h2
      | reduce h1 h2 => exact .reduce h1 (inFollow_iff.1 ((hf _ _ hr).1 (inFollow_iff.2 h2)))
      | accept h1 h2 => rw [h.1]; exact .accept h1 h2
    · intro ha
      cases ha with
      | shift h1 h2 => exact .shift h1 h2
      | reduce h1 h2 => exact .reduce h1 (inFollow_iff.1 ((hf _ _ hr).2 (inFollow_iff.2 h2)))
      | accept h1 h2 => rw [← h.1]; exact .accept h1 h2
  refine ⟨ok.cfsm.same h, ok.start.trans h.1, ?_, ?_, ?_, ok.goto, ok.gotoLen⟩
  · intro s hs k a
    rw [ok.action s hs k a]
    constructor
    · rintro ⟨p, hp, k', h1, h2⟩; exact ⟨p, hp, k', (hask s hs p hp _ _).1 h1, h2⟩
    · rintro ⟨p, hp, k', h1, h2⟩; exact ⟨p, hp, k', (hask s hs p hp _ _).2 h1, h2⟩
  · intro s hs p hp p' hp' k k' a a' h1 h2
    exact ok.unique s hs p hp p' hp' k k' a a' ((hask s hs p hp _ _).2 h1) ((hask s hs p' hp' _ _).2 h2)
  · intro n
    rw [ok.actionLen n]
    constructor
    · rintro ⟨s, hs, hn, p, hp, k, a, h1⟩; exact ⟨s, hs, hn, p, hp, k, a, (hask s hs p hp _ _).1 h1⟩
    · rintro ⟨s, hs, hn, p, hp, k, a, h1⟩; exact ⟨s, hs, hn, p, hp, k, a, (hask s hs p hp _ _).2 h1⟩

end Pango.Parse

import Verif.Proofs.ManyRuns
import Verif.Proofs.FragFirst

/-!
# Repeated groups of a pattern in its automaton
-/

namespace Pango.Fsm

open Pango Pango.Regex Pango.Spec

variable [Unicode] {E : Nat → Input → Nat → Prop}

/-- A path that ends at the head of the loop that repeats `b`. -/
def LoopAt (E : Nat → Input → Nat → Prop) (b : Expr) (A : Nat → Counts → Prop) : Prop :=
  ∃ x m κ, (frag b x x m).1.Ok x x ∧ (∀ y i y', (frag b x x m).1.Edge y i y' → E y i y') ∧ A x κ ∧
    ∀ h ∈ (frag b x x m).1.heads, κ h = 0

theorem LoopAt.imp {b : Expr} {A B : Nat → Counts → Prop} (h : LoopAt E b A) (f : ∀ x κ, A x κ → B x κ) :
    LoopAt E b B := by
  obtain ⟨x, m, κ, h1, h2, h3, h4⟩ := h
  exact ⟨x, m, κ, h1, h2, f x κ h3, h4⟩

theorem fragConcat_two (e e' : Expr) (es : List Expr) (s t n : Nat) : ∃ k,
    (frag (.concat (e :: e' :: es)) s t n).1 =
      .seq (frag e s n (n + 1)).1 n (frag (.concat (e' :: es)) n t k).1 := by
  exact ⟨(frag e s n (n + 1)).2, by rw [frag, fragConcat]; simp only [frag]; intro h; cases h⟩

theorem within_path {e b : Expr} {z : List Char} (h : Within e b z) (he : ¬ HasEmptySeq e) : ∀ {s t n : Nat} {κ : Counts},
    (frag e s t n).1.Ok s t → (∀ x i y, (frag e s t n).1.Edge x i y → E x i y) →
    (∀ h ∈ (frag e s t n).1.heads, κ h = 0) → LoopAt E b fun x κ' => ∃ k, Path E k s κ z x κ' := by
  induction h with
  | @here b q =>
    intro s t n κ ok hE hz
    rw [frag] at ok hE hz
    obtain ⟨_, _, sx, _, sb, _⟩ := ok.loop_ends
    refine ⟨n, n + 1, κ.bump s, ok.loop_body, fun y i y' h => hE _ _ _ (.inr (.inr h)),
      ⟨1, .single (.eps (hE _ _ _ (.inl ⟨rfl, rfl, rfl⟩)))⟩, fun h hh => ?_⟩
    rw [κ.bump_ne (by rintro rfl; exact sb (Fr.heads_inner hh))]
    exact hz h (List.mem_cons_of_mem _ hh)
  | altL _ ih =>
    intro s t n κ ok hE hz
    simp only [HasEmptySeq, not_or] at he
    rw [frag] at ok hE hz
    exact ih he.1 ok.alt_left (fun x i y h => hE _ _ _ (.inl h)) fun h hh => hz h (List.mem_append_left _ hh)
  | altR _ ih =>
    intro s t n κ ok hE hz
    simp only [HasEmptySeq, not_or] at he
    rw [frag] at ok hE hz
    exact ih he.2 ok.alt_right (fun x i y h => hE _ _ _ (.inr h)) fun h hh => hz h (List.mem_append_right _ hh)
  | group _ ih =>
    intro s t n κ ok hE hz
    simp only [HasEmptySeq] at he
    rw [frag] at ok hE hz
    exact ih he ok hE hz
  | @rounds e b q ws z hws _ ih =>
    intro s t n κ ok hE hz
    simp only [HasEmptySeq] at he
    rw [frag] at ok hE hz
    obtain ⟨_, _, sx, _, sb, _⟩ := ok.loop_ends
    have hEb : ∀ x i y, (frag e n n (n + 1)).1.Edge x i y → E x i y := fun x i y h => hE _ _ _ (.inr (.inr h))
    obtain ⟨k, κ1, h1, _, h3, _⟩ := Fr.rounds (E := E) ok.loop_body hEb ws (κ.bump s)
      (fun w hw => (frag_lang e he _ _ _ w).2 (hws w hw)) (fun h hh => by
        rw [κ.bump_ne (by rintro rfl; exact sb (Fr.heads_inner hh))]
        exact hz h (List.mem_cons_of_mem _ hh))
    refine (ih he ok.loop_body hEb h3).imp fun x κ' => ?_
    rintro ⟨k', hp⟩
    exact ⟨_, (Path.single (.eps (hE _ _ _ (.inl ⟨rfl, rfl, rfl⟩)))).append (h1.append hp)⟩
  | @head e b es z _ ih =>
    intro s t n κ ok hE hz
    simp only [HasEmptySeq, AnyEmptySeq, not_or] at he
    cases es with
    | nil =>
      rw [frag, fragConcat] at ok hE hz
      exact ih he.2.1 ok hE hz
    | cons e' es =>
      obtain ⟨k, hk⟩ := fragConcat_two e e' es s t n
      rw [hk] at ok hE hz
      exact ih he.2.1 ok.seq_left (fun x i y h => hE _ _ _ (.inl h)) fun h hh => hz h (List.mem_append_left _ hh)
  | @tail e b es u z hu hw ih =>
    intro s t n κ ok hE hz
    simp only [HasEmptySeq, AnyEmptySeq, not_or] at he
    cases es with
    | nil => cases hw
    | cons e' es =>
      obtain ⟨k, hk⟩ := fragConcat_two e e' es s t n
      rw [hk] at ok hE hz
      obtain ⟨k1, κ1, h1, _, _, h4⟩ := Fr.complete (E := E) ok.seq_left (fun x i y h => hE _ _ _ (.inl h))
        ((frag_lang e he.2.1 _ _ _ u).2 hu) fun h hh => hz h (List.mem_append_left _ hh)
      have he' : ¬ HasEmptySeq (.concat (e' :: es)) := by
        simp only [HasEmptySeq, not_or]
        exact ⟨by simp, he.2.2⟩
      have hz' : ∀ h ∈ (frag (.concat (e' :: es)) n t k).1.heads, κ1 h = 0 := by
        intro h hh
        have hi := Fr.heads_inner hh
        rw [h4 h (by rintro rfl; exact ok.s_out (by simp [Fr.inner, hi])) (fun ha => ok.seq_disjoint ha hi)]
        exact hz h (List.mem_append_right _ hh)
      refine (ih he' ok.seq_right (fun x i y h => hE _ _ _ (.inr h)) hz').imp fun x κ' => ?_
      rintro ⟨k', hp⟩
      exact ⟨_, h1.append hp⟩

/-- A path from the start, where nothing is counted before the first character. -/
def FirstPath (E : Nat → Input → Nat → Prop) (s : Nat) (κ : Counts) (z : List Char) (x : Nat) (κ' : Counts) : Prop :=
  ∃ p n d c v κ0, z = c :: v ∧ SReach E s p ∧ CStep E p κ [c] d κ0 ∧ Path E n d κ0 v x κ'

theorem FirstPath.append {s x y n : Nat} {κ κ1 κ2 : Counts} {u v : List Char} (h : FirstPath E s κ u x κ1)
    (h' : Path E n x κ1 v y κ2) : FirstPath E s κ (u ++ v) y κ2 := by
  obtain ⟨p, m, d, c, w, κ0, rfl, h1, h2, h3⟩ := h
  exact ⟨p, _, d, c, w ++ v, κ0, rfl, h1, h2, h3.append h'⟩

theorem FirstPath.lead {s s' x : Nat} {κ κ1 : Counts} {u : List Char} (hs : SReach E s s') (h : FirstPath E s' κ u x κ1) :
    FirstPath E s κ u x κ1 := by
  obtain ⟨p, m, d, c, w, κ0, rfl, h1, h2, h3⟩ := h
  exact ⟨p, _, d, c, w, κ0, rfl, hs.trans h1, h2, h3⟩

theorem enters_path {e b : Expr} {z : List Char} (h : Enters e b z) (he : ¬ HasEmptySeq e) : ∀ {s t n : Nat} {κ : Counts},
    (frag e s t n).1.Ok s t → (∀ x i y, (frag e s t n).1.Edge x i y → E x i y) →
    (∀ h ∈ (frag e s t n).1.heads, κ h = 0) → LoopAt E b (FirstPath E s κ z) := by
  induction h with
  | @here b q f u hu =>
    intro s t n κ ok hE hz
    simp only [HasEmptySeq] at he
    rw [frag] at ok hE hz
    have hEb : ∀ x i y, (frag b n n (n + 1)).1.Edge x i y → E x i y := fun x i y h => hE _ _ _ (.inr (.inr h))
    obtain ⟨x, k, d, c, v, κ0, κ', rfl, h1, h2, h3, _, h5, _⟩ := Fr.first_complete (E := E) ok.loop_body hEb
      ((frag_first b he _ _ _ f u).2 hu) (κ := κ) fun h hh => hz h (List.mem_cons_of_mem _ hh)
    exact ⟨n, n + 1, κ', ok.loop_body, hEb, ⟨x, k, d, c, v, κ0, rfl,
      ((SReach.refl _).eps (hE _ _ _ (.inl ⟨rfl, rfl, rfl⟩))).trans h1, h2, h3⟩, h5⟩
  | @first e b q z _ ih =>
    intro s t n κ ok hE hz
    simp only [HasEmptySeq] at he
    rw [frag] at ok hE hz
    exact (ih he ok.loop_body (fun x i y h => hE _ _ _ (.inr (.inr h)))
      fun h hh => hz h (List.mem_cons_of_mem _ hh)).imp fun x κ' h =>
        .lead ((SReach.refl _).eps (hE _ _ _ (.inl ⟨rfl, rfl, rfl⟩))) h
  | @rounds e b q f u ws z hu hws hb =>
    intro s t n κ ok hE hz
    simp only [HasEmptySeq] at he
    rw [frag] at ok hE hz
    have hEb : ∀ x i y, (frag e n n (n + 1)).1.Edge x i y → E x i y := fun x i y h => hE _ _ _ (.inr (.inr h))
    obtain ⟨x, k, d, c, v, κ0, κ1, rfl, h1, h2, h3, _, h5, _⟩ := Fr.first_complete (E := E) ok.loop_body hEb
      ((frag_first e he _ _ _ f u).2 hu) (κ := κ) fun h hh => hz h (List.mem_cons_of_mem _ hh)
    obtain ⟨k2, κ2, g1, _, g3, _⟩ := Fr.rounds (E := E) ok.loop_body hEb ws κ1
      (fun w hw => (frag_lang e he _ _ _ w).2 (hws w hw)) h5
    refine (within_path hb he ok.loop_body hEb g3).imp fun y κ' => ?_
    rintro ⟨k', hp⟩
    have : FirstPath E n κ (c :: v) n κ1 := ⟨x, k, d, c, v, κ0, rfl, h1, h2, h3⟩
    exact ((this.append g1).append hp).lead ((SReach.refl _).eps (hE _ _ _ (.inl ⟨rfl, rfl, rfl⟩)))
  | altL _ ih =>
    intro s t n κ ok hE hz
    simp only [HasEmptySeq, not_or] at he
    rw [frag] at ok hE hz
    exact ih he.1 ok.alt_left (fun x i y h => hE _ _ _ (.inl h)) fun h hh => hz h (List.mem_append_left _ hh)
  | altR _ ih =>
    intro s t n κ ok hE hz
    simp only [HasEmptySeq, not_or] at he
    rw [frag] at ok hE hz
    exact ih he.2 ok.alt_right (fun x i y h => hE _ _ _ (.inr h)) fun h hh => hz h (List.mem_append_right _ hh)
  | group _ ih =>
    intro s t n κ ok hE hz
    simp only [HasEmptySeq] at he
    rw [frag] at ok hE hz
    exact ih he ok hE hz
  | @head e b es z _ ih =>
    intro s t n κ ok hE hz
    simp only [HasEmptySeq, AnyEmptySeq, not_or] at he
    cases es with
    | nil =>
      rw [frag, fragConcat] at ok hE hz
      exact ih he.2.1 ok hE hz
    | cons e' es =>
      obtain ⟨k, hk⟩ := fragConcat_two e e' es s t n
      rw [hk] at ok hE hz
      exact ih he.2.1 ok.seq_left (fun x i y h => hE _ _ _ (.inl h)) fun h hh => hz h (List.mem_append_left _ hh)
  | @tail e b es f u z hu hw =>
    intro s t n κ ok hE hz
    simp only [HasEmptySeq, AnyEmptySeq, not_or] at he
    cases es with
    | nil => cases hw
    | cons e' es =>
      obtain ⟨k, hk⟩ := fragConcat_two e e' es s t n
      rw [hk] at ok hE hz
      obtain ⟨x, k1, d, c, v, κ0, κ1, rfl, h1, h2, h3, _, _, h4⟩ := Fr.first_complete (E := E) ok.seq_left
        (fun x i y h => hE _ _ _ (.inl h)) ((frag_first e he.2.1 _ _ _ f u).2 hu) (κ := κ)
        fun h hh => hz h (List.mem_append_left _ hh)
      have he' : ¬ HasEmptySeq (.concat (e' :: es)) := by
        simp only [HasEmptySeq, not_or]
        exact ⟨by simp, he.2.2⟩
      have hz' : ∀ h ∈ (frag (.concat (e' :: es)) n t k).1.heads, κ1 h = 0 := by
        intro h hh
        have hi := Fr.heads_inner hh
        rw [h4 h (by rintro rfl; exact ok.s_out (by simp [Fr.inner, hi])) (fun ha => ok.seq_disjoint ha hi)]
        exact hz h (List.mem_append_right _ hh)
      refine (within_path hw he' ok.seq_right (fun x i y h => hE _ _ _ (.inr h)) hz').imp fun y κ' => ?_
      rintro ⟨k', hp⟩
      have : FirstPath E s κ (c :: v) n κ1 := ⟨x, k1, d, c, v, κ0, rfl, h1, h2, h3⟩
      exact this.append hp
  | @skip e b es z hs hw ih =>
    intro s t n κ ok hE hz
    simp only [HasEmptySeq, AnyEmptySeq, not_or] at he
    cases es with
    | nil => cases hw
    | cons e' es =>
      obtain ⟨k, hk⟩ := fragConcat_two e e' es s t n
      rw [hk] at ok hE hz
      have he' : ¬ HasEmptySeq (.concat (e' :: es)) := by
        simp only [HasEmptySeq, not_or]
        exact ⟨by simp, he.2.2⟩
      exact (ih he' ok.seq_right (fun x i y h => hE _ _ _ (.inr h))
        fun h hh => hz h (List.mem_append_right _ hh)).imp fun x κ' h =>
          .lead (Fr.nul_reach ok.seq_left (fun x i y h => hE _ _ _ (.inl h)) ((frag_nul e he.2.1 _ _ _).2 hs)) h

/-- What the group repeats is not empty. -/
theorem within_class {e b : Expr} {z : List Char} (h : Within e b z) (he : ¬ HasEmptySeq e) (hr : RepeatsNonEmpty e) :
    ¬ HasEmptySeq b ∧ ¬ Matches b [] ∧ RepeatsNonEmpty b := by
  induction h with
  | here =>
    simp only [HasEmptySeq, RepeatsNonEmpty] at he hr
    exact ⟨he, hr.1, hr.2⟩
  | altL _ ih => simp only [HasEmptySeq, not_or, RepeatsNonEmpty] at he hr; exact ih he.1 hr.1
  | altR _ ih => simp only [HasEmptySeq, not_or, RepeatsNonEmpty] at he hr; exact ih he.2 hr.2
  | group _ ih => simp only [HasEmptySeq, RepeatsNonEmpty] at he hr; exact ih he hr
  | rounds _ _ ih => simp only [HasEmptySeq, RepeatsNonEmpty] at he hr; exact ih he hr.2
  | head _ ih =>
    simp only [HasEmptySeq, AnyEmptySeq, not_or, RepeatsNonEmpty, RepeatsNonEmptyAll] at he hr
    exact ih he.2.1 hr.1
  | @tail e b es _ _ _ hw ih =>
    simp only [HasEmptySeq, AnyEmptySeq, not_or, RepeatsNonEmpty, RepeatsNonEmptyAll] at he hr
    cases es with
    | nil => cases hw
    | cons e' es =>
      refine ih ?_ ?_
      · simp only [HasEmptySeq, not_or]
        exact ⟨by simp, he.2.2⟩
      · simp only [RepeatsNonEmpty]
        exact hr.2

theorem enters_class {e b : Expr} {z : List Char} (h : Enters e b z) (he : ¬ HasEmptySeq e) (hr : RepeatsNonEmpty e) :
    ¬ HasEmptySeq b ∧ ¬ Matches b [] ∧ RepeatsNonEmpty b := by
  induction h with
  | here =>
    simp only [HasEmptySeq, RepeatsNonEmpty] at he hr
    exact ⟨he, hr.1, hr.2⟩
  | first _ ih => simp only [HasEmptySeq, RepeatsNonEmpty] at he hr; exact ih he hr.2
  | altL _ ih => simp only [HasEmptySeq, not_or, RepeatsNonEmpty] at he hr; exact ih he.1 hr.1
  | altR _ ih => simp only [HasEmptySeq, not_or, RepeatsNonEmpty] at he hr; exact ih he.2 hr.2
  | group _ ih => simp only [HasEmptySeq, RepeatsNonEmpty] at he hr; exact ih he hr
  | rounds _ _ hb => simp only [HasEmptySeq, RepeatsNonEmpty] at he hr; exact within_class hb he hr.2
  | head _ ih =>
    simp only [HasEmptySeq, AnyEmptySeq, not_or, RepeatsNonEmpty, RepeatsNonEmptyAll] at he hr
    exact ih he.2.1 hr.1
  | @tail e b es _ _ _ _ hw =>
    simp only [HasEmptySeq, AnyEmptySeq, not_or, RepeatsNonEmpty, RepeatsNonEmptyAll] at he hr
    cases es with
    | nil => cases hw
    | cons e' es =>
      refine within_class hw ?_ ?_
      · simp only [HasEmptySeq, not_or]
        exact ⟨by simp, he.2.2⟩
      · simp only [RepeatsNonEmpty]
        exact hr.2
  | @skip e b es _ _ hw ih =>
    simp only [HasEmptySeq, AnyEmptySeq, not_or, RepeatsNonEmpty, RepeatsNonEmptyAll] at he hr
    cases es with
    | nil => cases hw
    | cons e' es =>
      refine ih ?_ ?_
      · simp only [HasEmptySeq, not_or]
        exact ⟨by simp, he.2.2⟩
      · simp only [RepeatsNonEmpty]
        exact hr.2

/-- Two ways to divide a text part at some word. -/
structure Divided (us vs : List (List Char)) (cs r1 r2 : List (List Char)) (u v2 : List Char) (c : Char) : Prop where
  ne : u ≠ []
  rest : r1.flatten = c :: v2 ++ r2.flatten
  parts : (us = cs ++ u :: r1 ∧ vs = cs ++ (u ++ c :: v2) :: r2) ∨ (vs = cs ++ u :: r1 ∧ us = cs ++ (u ++ c :: v2) :: r2)

omit [Unicode] in
theorem divided_of_ne {L : List Char → Prop} (hL : ¬ L []) : ∀ {us vs : List (List Char)}, us ≠ vs →
    us.flatten = vs.flatten → (∀ u ∈ us, L u) → (∀ v ∈ vs, L v) → ∃ cs r1 r2 u v2 c, Divided us vs cs r1 r2 u v2 c := by
  have short : ∀ {u u' : List Char} {us vs : List (List Char)}, u.length < u'.length →
      u ++ us.flatten = u' ++ vs.flatten → L u →
      ∃ v2 c, u ≠ [] ∧ us.flatten = c :: v2 ++ vs.flatten ∧ u' = u ++ c :: v2 := by
    intro u u' us vs hlt hf hu
    obtain ⟨a, rfl⟩ : ∃ a, u' = u ++ a := by
      refine ⟨u'.drop u.length, ?_⟩
      have := congrArg (List.take u.length) hf
      rw [List.take_left, List.take_append_of_le_length (by omega)] at this
      exact (List.take_append_drop u.length u').symm.trans (by rw [← this])
    rw [List.append_assoc, List.append_cancel_left_eq] at hf
    cases a with
    | nil => simp at hlt
    | cons c a => exact ⟨a, c, by rintro rfl; exact hL hu, hf, rfl⟩
  have none : ∀ {vs : List (List Char)}, vs.flatten = [] → (∀ v ∈ vs, L v) → vs = [] := by
    intro vs hf hv
    cases vs with
    | nil => rfl
    | cons v vs =>
      simp only [List.flatten_cons, List.append_eq_nil_iff] at hf
      exact absurd (hf.1 ▸ hv v (by simp)) hL
  intro us
  induction us with
  | nil => intro vs hne hf _ hv; exact absurd (none hf.symm hv).symm hne
  | cons u us ih =>
    intro vs hne hf hu hv
    cases vs with
    | nil => exact absurd (none hf hu) hne
    | cons v vs =>
      simp only [List.flatten_cons] at hf
      have lu := hu u (by simp)
      have lv := hv v (by simp)
      rcases Nat.lt_trichotomy u.length v.length with h | h | h
      · obtain ⟨v2, c, h1, h2, rfl⟩ := short h hf lu
        exact ⟨[], us, vs, u, v2, c, h1, h2, .inl ⟨rfl, rfl⟩⟩
      · obtain ⟨rfl, h2⟩ := List.append_inj hf h
        obtain ⟨cs, r1, r2, a, v2, c, h3, h4, h5⟩ := ih (by rintro rfl; exact hne rfl) h2
          (fun w hw => hu w (by simp [hw])) (fun w hw => hv w (by simp [hw]))
        refine ⟨u :: cs, r1, r2, a, v2, c, h3, h4, ?_⟩
        rcases h5 with ⟨rfl, rfl⟩ | ⟨rfl, rfl⟩
        · exact .inl ⟨rfl, rfl⟩
        · exact .inr ⟨rfl, rfl⟩
      · obtain ⟨v2, c, h1, h2, rfl⟩ := short h hf.symm lv
        exact ⟨[], vs, us, v, v2, c, h1, h2, .inr ⟨rfl, rfl⟩⟩

/-- Two ways to divide a text are two paths around the loop. -/
theorem Fr.fork_division {body : Fr} {x : Nat} (ok : body.Ok x x) (hn : ¬ body.Lang []) {us vs : List (List Char)}
    {κ : Counts} (hz : ∀ h ∈ body.heads, κ h = 0) (hne : us ≠ vs) (hf : us.flatten = vs.flatten)
    (hus : ∀ w ∈ us, body.Lang w) (hvs : ∀ w ∈ vs, body.Lang w) :
    Fork body.Edge x x κ us.flatten fun κ' => body.DoneAll x us.length κ κ' ∨ body.DoneAll x vs.length κ κ' := by
  have main : ∀ {us vs : List (List Char)} {cs r1 r2 : List (List Char)} {u v2 : List Char} {c : Char}, u ≠ [] →
      r1.flatten = c :: v2 ++ r2.flatten → us = cs ++ u :: r1 → vs = cs ++ (u ++ c :: v2) :: r2 →
      (∀ w ∈ us, body.Lang w) → (∀ w ∈ vs, body.Lang w) →
      Fork body.Edge x x κ us.flatten fun κ' => body.DoneAll x us.length κ κ' ∨ body.DoneAll x vs.length κ κ' := by
    rintro us vs cs r1 r2 u v2 c h1 h2 rfl rfl h3 h4
    have := Fr.fork_rounds ok hz (cs := cs) (r1 := r1) (r2 := r2) (u := u) (v2 := v2) (c := c)
      (fun w hw => h3 w (by simp [hw])) (fun w hw => h3 w (by simp [hw])) (fun w hw => h4 w (by simp [hw]))
      (h3 u (by simp)) (h4 _ (by simp)) h1 h2 rfl
    have e1 : (cs ++ u :: r1).length = cs.length + 1 + r1.length := by simp; omega
    have e2 : (cs ++ (u ++ c :: v2) :: r2).length = cs.length + 1 + r2.length := by simp; omega
    have e3 : (cs ++ u :: r1).flatten = cs.flatten ++ u ++ c :: (v2 ++ r2.flatten) := by simp [h2]
    rw [e1, e2, e3]
    exact this
  obtain ⟨cs, r1, r2, u, v2, c, h1, h2, h3 | h3⟩ := divided_of_ne hn hne hf hus hvs
  · exact main h1 h2 h3.1 h3.2 hus hvs
  · rw [hf]
    obtain ⟨u, c, v, x, y, g1, g2, g3, g4⟩ := main h1 h2 h3.1 h3.2 hvs hus
    refine ⟨u, c, v, x, y, g1, g2, ?_, ?_⟩
    · obtain ⟨a1, a2, a3, n, κ', a4, a5⟩ := g3
      exact ⟨a1, a2, a3, n, κ', a4, a5.symm⟩
    · obtain ⟨a1, a2, a3, n, κ', a4, a5⟩ := g4
      exact ⟨a1, a2, a3, n, κ', a4, a5.symm⟩

/-! ## Ambiguous patterns -/

omit [Unicode] in
theorem Fr.Done.alt_left {a b : Fr} {s t : Nat} {κ κ' : Counts} (ok : (Fr.alt a b).Ok s t)
    (hz : ∀ h ∈ (Fr.alt a b).heads, κ h = 0) (h : a.Done s κ κ') : (Fr.alt a b).Done s κ κ' := by
  refine ⟨h.1, fun y hy => ?_, fun y hy hn => ?_⟩
  · rcases List.mem_append.1 hy with hy | hy
    · exact h.2.1 y hy
    · have hi := Fr.heads_inner hy
      rw [h.2.2 y (by rintro rfl; exact ok.alt_right.s_out hi) (fun ha => ok.alt_disjoint ha hi)]
      exact hz y (List.mem_append_right _ hy)
  · simp only [Fr.inner, List.mem_append, not_or] at hn
    exact h.2.2 y hy hn.1

omit [Unicode] in
theorem Fr.Done.alt_right {a b : Fr} {s t : Nat} {κ κ' : Counts} (ok : (Fr.alt a b).Ok s t)
    (hz : ∀ h ∈ (Fr.alt a b).heads, κ h = 0) (h : b.Done s κ κ') : (Fr.alt a b).Done s κ κ' := by
  refine ⟨h.1, fun y hy => ?_, fun y hy hn => ?_⟩
  · rcases List.mem_append.1 hy with hy | hy
    · have hi := Fr.heads_inner hy
      rw [h.2.2 y (by rintro rfl; exact ok.alt_left.s_out hi) (fun hb => ok.alt_disjoint hi hb)]
      exact hz y (List.mem_append_left _ hy)
    · exact h.2.1 y hy
  · simp only [Fr.inner, List.mem_append, not_or] at hn
    exact h.2.2 y hy hn.2

omit [Unicode] in
theorem Fr.Done.seq_zero {a b : Fr} {s t m : Nat} {κ κ' : Counts} (ok : (Fr.seq a m b).Ok s t)
    (hz : ∀ h ∈ (Fr.seq a m b).heads, κ h = 0) (h : a.Done s κ κ') : ∀ y ∈ b.heads, κ' y = 0 := by
  intro y hy
  have hi := Fr.heads_inner hy
  rw [h.2.2 y (by rintro rfl; exact ok.s_out (by simp [Fr.inner, hi])) (fun ha => ok.seq_disjoint ha hi)]
  exact hz y (List.mem_append_right _ hy)

omit [Unicode] in
theorem Fr.Done.seq {a b : Fr} {s t m : Nat} {κ κ1 κ2 : Counts} (ok : (Fr.seq a m b).Ok s t)
    (h : a.Done s κ κ1) (h' : b.Done m κ1 κ2) : (Fr.seq a m b).Done s κ κ2 := by
  have hs : s ∉ b.inner := fun hb => ok.s_out (by simp [Fr.inner, hb])
  refine ⟨by rw [h'.2.2 s ok.seq_mid.1 hs, h.1], fun y hy => ?_, fun y hy hn => ?_⟩
  · rcases List.mem_append.1 hy with hy | hy
    · have hi := Fr.heads_inner hy
      rw [h'.2.2 y (by rintro rfl; exact ok.seq_left.t_out hi) (ok.seq_disjoint hi)]
      exact h.2.1 y hy
    · exact h'.2.1 y hy
  · simp only [Fr.inner, List.mem_append, List.mem_cons, not_or] at hn
    rw [h'.2.2 y hn.1 hn.2.2, h.2.2 y hy hn.2.1]

/-- Going into a loop. -/
theorem Fr.loop_in {body : Fr} {s x t : Nat} {q : Quant} {κ : Counts} (ok : (Fr.loop s x t q body).Ok s t)
    (hz : ∀ h ∈ (Fr.loop s x t q body).heads, κ h = 0) :
    Path (Fr.loop s x t q body).Edge 1 s κ [] x (κ.bump s) ∧ (∀ h ∈ body.heads, κ.bump s h = 0) ∧ κ.bump s x = 0 := by
  obtain ⟨_, _, sx, _, sb, _⟩ := ok.loop_ends
  refine ⟨.single (.eps (.inl ⟨rfl, rfl, rfl⟩)), fun h hh => ?_, ?_⟩
  · rw [κ.bump_ne (by rintro rfl; exact sb (Fr.heads_inner hh))]
    exact hz h (List.mem_cons_of_mem _ hh)
  · rw [κ.bump_ne sx.symm]
    exact hz x (by simp [Fr.heads])

/-- Going out of a loop. -/
theorem Fr.loop_out {body : Fr} {s x t k : Nat} {q : Quant} {κ κ' : Counts} (ok : (Fr.loop s x t q body).Ok s t)
    (hz : ∀ h ∈ (Fr.loop s x t q body).heads, κ h = 0) (hd : body.DoneAll x k (κ.bump s) κ')
    (hq : q.isSatisfied k = true) :
    Path (Fr.loop s x t q body).Edge 1 x κ' [] t (κ'.reset x) ∧ (Fr.loop s x t q body).Done s κ (κ'.reset x) := by
  obtain ⟨_, _, sx, _, sb, _⟩ := ok.loop_ends
  have h0 := (Fr.loop_in ok hz).2.2
  refine ⟨.single (.quant (.inr (.inl ⟨rfl, rfl, rfl⟩)) (by rw [hd.1, h0, Nat.zero_add]; exact hq)), ?_, fun h hh => ?_,
    fun y hy hn => ?_⟩
  · rw [κ'.reset_ne sx, hd.2.2 s sx sb, κ.bump_self]
  · rcases List.mem_cons.1 hh with rfl | hb
    · exact κ'.reset_self h
    · rw [κ'.reset_ne (by rintro rfl; exact ok.loop_body.s_out (Fr.heads_inner hb))]
      exact hd.2.1 h hb
  · simp only [Fr.inner, List.mem_cons, not_or] at hn
    rw [κ'.reset_ne hn.1, hd.2.2 y hn.1 hn.2, κ.bump_ne hy]

mutual

/-- An edge that reads a character and leads all the way through. -/
theorem frag_bare (e : Expr) {s t n : Nat} {l : Lit} (ok : (frag e s t n).1.Ok s t)
    (h : (frag e s t n).1.Edge s (.literal l) t) : Bare e l := by
  match e with
  | .concat es =>
    rw [frag] at ok h
    exact fragConcat_bare es ok h
  | .empty => rw [frag] at h; cases h.2.1
  | .alt e e' =>
    rw [frag] at ok h
    rcases h with h | h
    · exact .altL (frag_bare e ok.alt_left h)
    · exact .altR (frag_bare e' ok.alt_right h)
  | .lit l' none =>
    rw [frag] at h
    cases h.2.1
    exact .lit
  | .lit l' (some q) =>
    rw [frag] at ok h
    obtain ⟨_, _, sx, _⟩ := ok.loop_ends
    rcases h with h | h | h
    · cases h.2.1
    · cases h.2.1
    · exact absurd h.1 sx
  | .group e none =>
    rw [frag] at ok h
    exact .group (frag_bare e ok h)
  | .group e (some q) =>
    rw [frag] at ok h
    obtain ⟨_, _, sx, _, sb, _⟩ := ok.loop_ends
    rcases h with h | h | h
    · cases h.2.1
    · cases h.2.1
    · rcases Fr.edge_source ok.loop_body.shape h with h | h
      · exact absurd h sx
      · exact absurd h sb

theorem fragConcat_bare (es : List Expr) {s t n : Nat} {l : Lit} (ok : (fragConcat es s t n).1.Ok s t)
    (h : (fragConcat es s t n).1.Edge s (.literal l) t) : Bare (.concat es) l := by
  match es with
  | [] => rw [fragConcat] at h; cases h.2.1
  | [e] =>
    rw [fragConcat] at ok h
    exact .single (frag_bare e ok h)
  | e :: e' :: es =>
    rw [fragConcat] at ok h
    · rcases h with h | h
      · rcases Fr.edge_target ok.seq_left.shape h with h | h
        · exact absurd h ok.seq_mid.2
        · exact absurd (by simp [Fr.inner, h]) ok.t_out
      · rcases Fr.edge_source ok.seq_right.shape h with h | h
        · exact absurd h ok.seq_mid.1
        · exact absurd (by simp [Fr.inner, h]) ok.s_out
    all_goals intro h; cases h

end

/-- A path through a fragment that has read something is inside of the fragment when it reads on. -/
theorem Branch.inside {fr : Fr} {s t : Nat} {κ κ' : Counts} {u v : List Char} {c : Char}
    {x : (Nat × Counts) × (Lit × Nat)} (ok : fr.Ok s t) (h : Branch fr.Edge s t κ u c v (fun k => k = κ') x)
    (hd : fr.Done s κ κ') (hu : u ≠ []) : x.1.1 ∈ fr.inner := by
  rcases Fr.edge_source ok.shape h.edge with e | e
  · obtain ⟨n, h1⟩ := h.before
    obtain ⟨n', _, h2, rfl⟩ := h.after
    have l1 := h1.grows ok.no_quant
    have l2 := h2.grows ok.no_quant
    have l3 := (CStep.char (κ := x.1.2) h.edge h.reads).grows ok.no_quant
    have ne : n ≠ 0 := by
      rintro rfl
      generalize x.1.1 = p, x.1.2 = k at h1
      cases h1
      exact hu rfl
    have := l1.2 rfl ne
    have := l3.2 e
    have := hd.1
    omega
  · exact e

omit [Unicode] in
theorem not_emptySeq_tail {e' : Expr} {es : List Expr} (h : ¬ AnyEmptySeq (e' :: es)) :
    ¬ HasEmptySeq (.concat (e' :: es)) := by
  simp only [HasEmptySeq, not_or]
  exact ⟨by simp, h⟩

/-- For an ambiguous word there are two paths. -/
theorem frag_fork {e : Expr} {w : List Char} (h : Ambiguous e w) (he : ¬ HasEmptySeq e) (hr : RepeatsNonEmpty e) :
    ∀ {s t n : Nat} {κ : Counts}, (frag e s t n).1.Ok s t → (∀ h ∈ (frag e s t n).1.heads, κ h = 0) →
    Fork (frag e s t n).1.Edge s t κ w ((frag e s t n).1.Done s κ) := by
  have same : ∀ (fr : Fr) x i y, fr.Edge x i y → fr.Edge x i y := fun _ _ _ _ h => h
  induction h with
  | @alts l r w hl hrr hne hb =>
    intro s t n κ ok hz
    simp only [HasEmptySeq, not_or] at he
    rw [frag] at ok hz ⊢
    have hzl : ∀ h ∈ (frag l s t n).1.heads, κ h = 0 := fun h hh => hz h (List.mem_append_left _ hh)
    have hzr : ∀ h ∈ (frag r s t (frag l s t n).2).1.heads, κ h = 0 := fun h hh => hz h (List.mem_append_right _ hh)
    obtain ⟨n1, κ1, a1, a2⟩ := Fr.passes ok.alt_left (same _) ((frag_lang l he.1 _ _ _ w).2 hl) hzl
    obtain ⟨n2, κ2, b1, b2⟩ := Fr.passes ok.alt_right (same _) ((frag_lang r he.2 _ _ _ w).2 hrr) hzr
    have fin : ∀ {u c v x y}, w = u ++ c :: v → x ≠ y →
        Branch (frag l s t n).1.Edge s t κ u c v (fun k => k = κ1) x →
        Branch (frag r s t (frag l s t n).2).1.Edge s t κ u c v (fun k => k = κ2) y →
        Fork (Fr.alt (frag l s t n).1 (frag r s t (frag l s t n).2).1).Edge s t κ w
          ((Fr.alt (frag l s t n).1 (frag r s t (frag l s t n).2).1).Done s κ) := by
      intro u c v x y h1 h2 h3 h4
      refine ⟨u, c, v, x, y, h1, h2, Branch.mono (fun _ _ _ h => .inl h) ?_, Branch.mono (fun _ _ _ h => .inr h) ?_⟩
      · obtain ⟨k1, k2, k3, m, _, k4, rfl⟩ := h3
        exact ⟨k1, k2, k3, m, _, k4, a2.alt_left ok hz⟩
      · obtain ⟨k1, k2, k3, m, _, k4, rfl⟩ := h4
        exact ⟨k1, k2, k3, m, _, k4, b2.alt_right ok hz⟩
    match w, hne with
    | [c], _ =>
      obtain ⟨x, hx⟩ := Branch.of_path (u := []) (v := []) (A := fun k => k = κ1) a1 rfl
      obtain ⟨y, hy⟩ := Branch.of_path (u := []) (v := []) (A := fun k => k = κ2) b1 rfl
      refine fin (u := []) rfl ?_ hx hy
      rintro rfl
      have e1 : x.1.1 = s := by
        rcases Fr.edge_source ok.alt_left.shape hx.edge with h | h
        · exact h
        · rcases Fr.edge_source ok.alt_right.shape hy.edge with h' | h'
          · exact h'
          · exact absurd h' (ok.alt_disjoint h)
      have e2 : x.2.2 = t := by
        rcases Fr.edge_target ok.alt_left.shape hx.edge with h | h
        · exact h
        · rcases Fr.edge_target ok.alt_right.shape hy.edge with h' | h'
          · exact h'
          · exact absurd h' (ok.alt_disjoint h)
      have f1 := hx.edge
      have f2 := hy.edge
      rw [e1, e2] at f1 f2
      exact hb c _ rfl ((Pango.Props.c08_literal_sets _ c).1 hx.reads) (frag_bare l ok.alt_left f1) (frag_bare r ok.alt_right f2)
    | c :: c' :: v, _ =>
      obtain ⟨x, hx⟩ := Branch.of_path (u := [c]) (v := v) (c := c') (A := fun k => k = κ1) a1 rfl
      obtain ⟨y, hy⟩ := Branch.of_path (u := [c]) (v := v) (c := c') (A := fun k => k = κ2) b1 rfl
      refine fin (u := [c]) rfl ?_ hx hy
      rintro rfl
      exact ok.alt_disjoint (hx.inside ok.alt_left a2 (by simp)) (hy.inside ok.alt_right b2 (by simp))
  | @split e es u a v hu hav hua hv hne =>
    intro s t n κ ok hz
    simp only [HasEmptySeq, AnyEmptySeq, not_or] at he
    cases es with
    | nil =>
      generalize hw : a ++ v = w at hav
      cases hav
      exact absurd (List.append_eq_nil_iff.1 hw).1 hne
    | cons e' es =>
      obtain ⟨k, hk⟩ := fragConcat_two e e' es s t n
      rw [hk] at ok hz ⊢
      have he' : ¬ HasEmptySeq (.concat (e' :: es)) := not_emptySeq_tail he.2.2
      have hza : ∀ h ∈ (frag e s n (n + 1)).1.heads, κ h = 0 := fun h hh => hz h (List.mem_append_left _ hh)
      cases a with
      | nil => exact absurd rfl hne
      | cons c a =>
        obtain ⟨n1, κ1, a1, a2⟩ := Fr.passes ok.seq_left (same _) ((frag_lang e he.2.1 _ _ _ u).2 hu) hza
        obtain ⟨n2, κ2, b1, b2⟩ := Fr.passes ok.seq_right (same _)
          ((frag_lang _ he' _ _ _ (c :: a ++ v)).2 hav) (a2.seq_zero ok hz)
        obtain ⟨n3, κ3, c1, c2⟩ := Fr.passes ok.seq_left (same _) ((frag_lang e he.2.1 _ _ _ (u ++ c :: a)).2 hua) hza
        obtain ⟨n4, κ4, d1, d2⟩ := Fr.passes ok.seq_right (same _)
          ((frag_lang _ he' _ _ _ v).2 hv) (c2.seq_zero ok hz)
        obtain ⟨x, hx⟩ := Branch.of_path (u := []) (v := a ++ v) (A := fun k => k = κ2) b1 rfl
        obtain ⟨y, hy⟩ := Branch.of_path (A := fun k => k = κ3) c1 rfl
        refine ⟨u, c, a ++ v, x, y, by simp, ?_, ?_, ?_⟩
        · rintro rfl
          have hs : s ∉ (frag (.concat (e' :: es)) n t k).1.inner := fun hb => ok.s_out (by simp [Fr.inner, hb])
          rcases Fr.edge_source ok.seq_right.shape hx.edge with h | h <;>
          rcases Fr.edge_source ok.seq_left.shape hy.edge with h' | h'
          · exact ok.seq_mid.1 (h'.symm.trans h)
          · exact ok.seq_left.t_out (h ▸ h')
          · exact hs (h' ▸ h)
          · exact ok.seq_disjoint h' h
        · have h1 : Branch (Fr.seq (frag e s n (n + 1)).1 n (frag (.concat (e' :: es)) n t k).1).Edge n t κ1 [] c (a ++ v)
              ((Fr.seq (frag e s n (n + 1)).1 n (frag (.concat (e' :: es)) n t k).1).Done s κ) x := by
            refine Branch.mono (fun _ _ _ h => .inr h) ?_
            obtain ⟨k1, k2, k3, m, _, k4, rfl⟩ := hx
            exact ⟨k1, k2, k3, m, _, k4, a2.seq ok b2⟩
          have := h1.prepend (a1.mono fun _ _ _ h => .inl h)
          rwa [List.append_nil] at this
        · refine (hy.mono (fun _ _ _ h => .inl h)).extend ?_
          rintro _ rfl
          exact ⟨n4, κ4, d1.mono (fun _ _ _ h => .inr h), c2.seq ok d2⟩
  | @rounds e q us vs hne hf hus hvs hq hq' =>
    intro s t n κ ok hz
    simp only [HasEmptySeq, RepeatsNonEmpty] at he hr
    rw [frag] at ok hz ⊢
    have lang := frag_lang e he n n (n + 1)
    obtain ⟨p1, p2, _⟩ := Fr.loop_in ok hz
    have f := Fr.fork_division ok.loop_body (by rw [lang]; exact hr.1) p2 hne hf
      (fun u hu => (lang u).2 (hus u hu)) fun v hv => (lang v).2 (hvs v hv)
    have g := ((f.mono fun _ _ _ h => .inr (.inr h)).prepend p1).extend (v0 := []) (t' := t)
      (B := (Fr.loop s n t q (frag e n n (n + 1)).1).Done s κ) fun κ' hk => ⟨1, κ'.reset n, ?_⟩
    · simpa using g
    · rcases hk with hk | hk
      · exact Fr.loop_out ok hz hk ((isSatisfied_iff q _).2 hq)
      · exact Fr.loop_out ok hz hk ((isSatisfied_iff q _).2 hq')
  | @altL l r w _ ih =>
    intro s t n κ ok hz
    simp only [HasEmptySeq, not_or, RepeatsNonEmpty] at he hr
    rw [frag] at ok hz ⊢
    have g := ((ih he.1 hr.1 ok.alt_left fun h hh => hz h (List.mem_append_left _ hh)).mono
      (F := (Fr.alt (frag l s t n).1 (frag r s t (frag l s t n).2).1).Edge) fun _ _ _ h => .inl h).extend (v0 := []) (t' := t) fun κ' hk => ⟨0, κ', .refl _ _, hk.alt_left ok hz⟩
    rw [List.append_nil] at g
    exact g
  | @altR l r w _ ih =>
    intro s t n κ ok hz
    simp only [HasEmptySeq, not_or, RepeatsNonEmpty] at he hr
    rw [frag] at ok hz ⊢
    have g := ((ih he.2 hr.2 ok.alt_right fun h hh => hz h (List.mem_append_right _ hh)).mono
      (F := (Fr.alt (frag l s t n).1 (frag r s t (frag l s t n).2).1).Edge) fun _ _ _ h => .inr h).extend (v0 := []) (t' := t) fun κ' hk => ⟨0, κ', .refl _ _, hk.alt_right ok hz⟩
    rw [List.append_nil] at g
    exact g
  | @head e es u v _ hv ih =>
    intro s t n κ ok hz
    simp only [HasEmptySeq, AnyEmptySeq, not_or, RepeatsNonEmpty, RepeatsNonEmptyAll] at he hr
    cases es with
    | nil =>
      rw [frag, fragConcat] at ok hz ⊢
      cases hv
      rw [List.append_nil]
      exact ih he.2.1 hr.1 ok hz
    | cons e' es =>
      obtain ⟨k, hk⟩ := fragConcat_two e e' es s t n
      rw [hk] at ok hz ⊢
      have he' : ¬ HasEmptySeq (.concat (e' :: es)) := not_emptySeq_tail he.2.2
      refine ((ih he.2.1 hr.1 ok.seq_left fun h hh => hz h (List.mem_append_left _ hh)).mono
        fun _ _ _ h => .inl h).extend fun κ' hd => ?_
      obtain ⟨n1, κ1, a1, a2⟩ := Fr.passes ok.seq_right (same _)
        ((frag_lang _ he' _ _ _ v).2 hv) (hd.seq_zero ok hz)
      exact ⟨n1, κ1, a1.mono (fun _ _ _ h => .inr h), hd.seq ok a2⟩
  | @tail e es u v hu hv ih =>
    intro s t n κ ok hz
    simp only [HasEmptySeq, AnyEmptySeq, not_or, RepeatsNonEmpty, RepeatsNonEmptyAll] at he hr
    cases es with
    | nil => cases hv
    | cons e' es =>
      obtain ⟨k, hk⟩ := fragConcat_two e e' es s t n
      rw [hk] at ok hz ⊢
      have he' : ¬ HasEmptySeq (.concat (e' :: es)) := not_emptySeq_tail he.2.2
      obtain ⟨n1, κ1, a1, a2⟩ := Fr.passes ok.seq_left (same _) ((frag_lang e he.2.1 _ _ _ u).2 hu)
        fun h hh => hz h (List.mem_append_left _ hh)
      have g := ((ih he' (by simp only [RepeatsNonEmpty]; exact hr.2) ok.seq_right (a2.seq_zero ok hz)).mono
        (F := (Fr.seq (frag e s n (n + 1)).1 n (frag (.concat (e' :: es)) n t k).1).Edge)
        fun _ _ _ h => .inr h).extend (v0 := []) (t' := t) fun κ' hd => ⟨0, κ', .refl _ _, a2.seq ok hd⟩
      rw [List.append_nil] at g
      exact g.prepend (a1.mono fun _ _ _ h => .inl h)
  | group _ ih =>
    intro s t n κ ok hz
    simp only [HasEmptySeq, RepeatsNonEmpty] at he hr
    rw [frag] at ok hz ⊢
    exact ih he hr ok hz
  | @round e q us vs w hus _ hvs hq ih =>
    intro s t n κ ok hz
    simp only [HasEmptySeq, RepeatsNonEmpty] at he hr
    rw [frag] at ok hz ⊢
    have lang := frag_lang e he n n (n + 1)
    obtain ⟨p1, p2, _⟩ := Fr.loop_in ok hz
    obtain ⟨n1, κ1, a1, a2⟩ := Fr.around ok.loop_body (same _) us (fun u hu => (lang u).2 (hus u hu)) p2
    have hb : ∀ x i y, (frag e n n (n + 1)).1.Edge x i y →
        (Fr.loop s n t q (frag e n n (n + 1)).1).Edge x i y := fun _ _ _ h => .inr (.inr h)
    have g := ((((ih he hr.2 ok.loop_body a2.2.1).mono hb).prepend (a1.mono hb)).prepend p1).extend (v0 := vs.flatten)
      (t' := t) (B := (Fr.loop s n t q (frag e n n (n + 1)).1).Done s κ) fun κ' hk => ?_
    · rwa [List.nil_append] at g
    · obtain ⟨n2, κ2, b1, b2⟩ := Fr.around ok.loop_body (same _) vs (fun u hu => (lang u).2 (hvs u hu)) hk.2.1
      obtain ⟨c1, c2⟩ := Fr.loop_out ok hz ((a2.trans (j := 1) hk).trans b2) ((isSatisfied_iff q _).2 hq)
      have := (b1.mono hb).append c1
      rw [List.append_nil] at this
      exact ⟨_, _, this, c2⟩

/-- If rounds of `b` can read a word in two ways, then there are two paths around the loop. -/
theorem rounds_fork {b : Expr} {w : List Char} (h : Ambiguous (.group b (some .asterisk)) w) (hb : ¬ HasEmptySeq b)
    (hr : RepeatsNonEmpty b) (hn : ¬ Matches b []) {x m : Nat} {κ : Counts} (ok : (frag b x x m).1.Ok x x)
    (hz : ∀ h ∈ (frag b x x m).1.heads, κ h = 0) :
    Fork (frag b x x m).1.Edge x x κ w fun κ' => ∀ h ∈ (frag b x x m).1.heads, κ' h = 0 := by
  have lang := frag_lang b hb x x m
  have same : ∀ x' i y, (frag b x x m).1.Edge x' i y → (frag b x x m).1.Edge x' i y := fun _ _ _ h => h
  cases h with
  | rounds hne hf hus hvs _ _ =>
    have g := (Fr.fork_division ok (by rw [lang]; exact hn) hz hne hf (fun u hu => (lang u).2 (hus u hu))
      fun v hv => (lang v).2 (hvs v hv)).extend (v0 := []) (t' := x)
      (B := fun κ' => ∀ h ∈ (frag b x x m).1.heads, κ' h = 0)
      fun κ' hk => ⟨0, κ', .refl _ _, hk.elim (fun h => h.2.1) fun h => h.2.1⟩
    rwa [List.append_nil] at g
  | @round _ _ us vs w hus ha hvs _ =>
    obtain ⟨n1, κ1, a1, a2⟩ := Fr.around ok same us (fun u hu => (lang u).2 (hus u hu)) hz
    refine ((frag_fork ha hb hr ok a2.2.1).prepend a1).extend fun κ' hk => ?_
    obtain ⟨n2, κ2, b1, b2⟩ := Fr.around ok same vs (fun u hu => (lang u).2 (hvs u hu)) hk.2.1
    exact ⟨n2, κ2, b1, b2.2.1⟩

end Pango.Fsm

import Verif.Proofs.Traces
import Verif.Proofs.ManyRunsFrag
import Verif.Spec.Unambiguous

/-!
# Unambiguous fragments have few traces
-/

namespace Pango.Fsm

open Pango Pango.Regex Pango.Spec

variable [Unicode]

theorem spelled_flatten (ws : List (List Mark)) : spelled ws.flatten = (ws.map spelled).flatten := by
  induction ws with
  | nil => rfl
  | cons u ws ih => rw [List.flatten_cons, spelled_append, ih]; rfl

theorem Fr.Traces.lang {fr : Fr} : ∀ {T : List Mark}, fr.Traces T → fr.Lang (spelled T) := by
  induction fr with
  | eps => rintro T rfl; rfl
  | lit => rintro T ⟨c, rfl, hc⟩; exact ⟨c, rfl, hc⟩
  | alt a b iha ihb => exact fun h => h.imp iha ihb
  | seq a m b iha ihb =>
    rintro T ⟨U, V, rfl, h1, h2⟩
    exact ⟨_, _, spelled_append U V, iha h1, ihb h2⟩
  | loop s x t q body ih =>
    rintro T ⟨ws, rfl, hq, h⟩
    refine ⟨ws.map spelled, ?_, by rwa [List.length_map], ?_⟩
    · rw [spelled_cons, spelled_append, spelled_flatten]
      simp [spelled]
    · intro u hu
      obtain ⟨v, hv, rfl⟩ := List.mem_map.1 hu
      exact ih (h v hv)

theorem bare_traces {e : Expr} {l : Lit} (h : Bare e l) {c : Char} (hc : l.contains c = true) :
    ∀ (s t n : Nat), (frag e s t n).1.Traces [(s, .literal l, t, [c])] := by
  induction h with
  | lit => intro s t n; rw [frag]; exact ⟨c, rfl, hc⟩
  | altL _ ih => intro s t n; rw [frag]; exact .inl (ih hc s t n)
  | altR _ ih => intro s t n; rw [frag]; exact .inr (ih hc s t _)
  | group _ ih => intro s t n; rw [frag]; exact ih hc s t n
  | single _ ih => intro s t n; rw [frag, fragConcat]; exact ih hc s t n

/-- Two lists of the same words have the same elements, or differ in one. -/
theorem differ_at {ws vs : List (List Mark)} (hm : ws.map spelled = vs.map spelled) (hne : ws ≠ vs) :
    ∃ pre u post u', ws = pre ++ u :: post ∧ u' ∈ vs ∧ spelled u = spelled u' ∧ u ≠ u' := by
  induction ws generalizing vs with
  | nil =>
    cases vs with
    | nil => exact absurd rfl hne
    | cons v vs => simp at hm
  | cons u ws ih =>
    cases vs with
    | nil => simp at hm
    | cons v vs =>
      simp only [List.map_cons, List.cons.injEq] at hm
      by_cases h : u = v
      · subst h
        obtain ⟨pre, x, post, y, rfl, h1, h2, h3⟩ := ih hm.2 (by rintro rfl; exact hne rfl)
        exact ⟨u :: pre, x, post, y, rfl, List.mem_cons_of_mem _ h1, h2, h3⟩
      · exact ⟨[], u, ws, v, rfl, List.mem_cons_self, hm.1, h⟩

/-- Two ways to go around a loop are two ways to divide or to read what is repeated. -/
theorem rounds_differ {e : Expr} {L : List Mark → Prop} (hl : ∀ T, L T → Matches e (spelled T))
    (ih : ∀ T T', L T → L T' → spelled T = spelled T' → T ≠ T' → Ambiguous e (spelled T)) {q : Quant}
    {ws vs : List (List Mark)} (hws : ∀ u ∈ ws, L u) (hvs : ∀ u ∈ vs, L u) (hq : QuantSet (some q) ws.length)
    (hq' : QuantSet (some q) vs.length) (hw : spelled ws.flatten = spelled vs.flatten) (hne : ws ≠ vs) :
    Ambiguous (.group e (some q)) (spelled ws.flatten) := by
  have words : ∀ {us : List (List Mark)}, (∀ u ∈ us, L u) → ∀ w ∈ us.map spelled, Matches e w := by
    intro us h w hw
    obtain ⟨u, hu, rfl⟩ := List.mem_map.1 hw
    exact hl u (h u hu)
  by_cases hm : ws.map spelled = vs.map spelled
  · obtain ⟨pre, u, post, u', rfl, h1, h2, h3⟩ := differ_at hm hne
    have ha := ih u u' (hws u (by simp)) (hvs u' h1) h2 h3
    have := Ambiguous.round (q := q) (words (us := pre) fun u hu => hws u (by simp [hu])) ha
      (words (us := post) fun u hu => hws u (by simp [hu])) (by
        rw [List.length_map, List.length_map]
        rwa [List.length_append, List.length_cons, Nat.add_comm post.length, ← Nat.add_assoc] at hq)
    rw [spelled_flatten]
    simpa using this
  · rw [spelled_flatten]
    rw [spelled_flatten, spelled_flatten] at hw
    exact .rounds hm hw (words hws) (words hvs) (by rwa [List.length_map]) (by rwa [List.length_map])

theorem lit_rounds {s t : Nat} {l : Lit} {ws : List (List Mark)} (h : ∀ u ∈ ws, (Fr.lit s t l).Traces u) :
    ws = (spelled ws.flatten).map fun c => [(s, .literal l, t, [c])] := by
  induction ws with
  | nil => rfl
  | cons u ws ih =>
    obtain ⟨c, rfl, _⟩ := h u (by simp)
    have := ih fun u hu => h u (by simp [hu])
    rw [List.flatten_cons, spelled_append]
    simp only [spelled_cons, List.map_append, ← this]
    rfl

theorem loop_spelled {s x t : Nat} {q : Quant} (ws : List (List Mark)) :
    spelled ((s, .eps, x, []) :: (ws.flatten ++ [(x, .quantified q, t, [])])) = spelled ws.flatten := by
  rw [spelled_cons, spelled_append]
  simp [spelled]

mutual

/-- Two traces with the same word show that the word is ambiguous. -/
theorem traces_differ (e : Expr) (he : ¬ HasEmptySeq e) (hn : NoEmptyChoice e) {s t n : Nat} {T T' : List Mark}
    (h : (frag e s t n).1.Traces T) (h' : (frag e s t n).1.Traces T') (hw : spelled T = spelled T') (hne : T ≠ T') :
    Ambiguous e (spelled T) := by
  match e with
  | .concat es =>
    simp only [HasEmptySeq, not_or, NoEmptyChoice] at he hn
    rw [frag] at h h'
    exact tracesConcat_differ es he.1 he.2 hn h h' hw hne
  | .empty =>
    rw [frag] at h h'
    exact absurd (Eq.trans h (Eq.symm h')) hne
  | .alt l r =>
    simp only [HasEmptySeq, not_or, NoEmptyChoice] at he hn
    rw [frag] at h h'
    -- one trace in each part
    have cross : ∀ {A B : List Mark}, (frag l s t n).1.Traces A → (frag r s t (frag l s t n).2).1.Traces B →
        spelled A = spelled B → A ≠ B → Ambiguous (.alt l r) (spelled A) := by
      intro A B hA hB hAB hd
      have mA := (frag_lang l he.1 _ _ _ _).1 hA.lang
      have mB := (frag_lang r he.2 _ _ _ _).1 hB.lang
      by_cases hcase : ∃ c u, spelled A = [c] ∧ LitSet u c ∧ Bare l u ∧ Bare r u
      · obtain ⟨c, u, h1, h2, h3, h4⟩ := hcase
        have hc := (Pango.Props.c08_literal_sets u c).2 h2
        have sA := bare_traces h3 hc s t n
        have sB := bare_traces h4 hc s t (frag l s t n).2
        by_cases hAS : A = [(s, .literal u, t, [c])]
        · have := traces_differ r he.2 hn.2.2 hB sB (by rw [← hAB, h1]; rfl) (by rw [← hAS]; exact Ne.symm hd)
          rw [hAB]
          exact .altR this
        · exact .altL (traces_differ l he.1 hn.2.1 hA sA (by rw [h1]; rfl) hAS)
      · refine .alts mA (hAB ▸ mB) ?_ ?_
        · intro h0
          rw [h0] at mA
          rw [← hAB, h0] at mB
          exact hn.1 ⟨mA, mB⟩
        · intro c u h1 h2 h3 h4
          exact hcase ⟨c, u, h1, h2, h3, h4⟩
    rcases h with h | h <;> rcases h' with h' | h'
    · exact .altL (traces_differ l he.1 hn.2.1 h h' hw hne)
    · exact cross h h' hw hne
    · rw [hw]
      exact cross h' h hw.symm (Ne.symm hne)
    · exact .altR (traces_differ r he.2 hn.2.2 h h' hw hne)
  | .lit l none =>
    rw [frag] at h h'
    obtain ⟨c, rfl, _⟩ := h
    obtain ⟨c', rfl, _⟩ := h'
    have : c = c' := by simpa [spelled] using hw
    subst this
    exact absurd rfl hne
  | .lit l (some q) =>
    rw [frag] at h h'
    obtain ⟨ws, rfl, _, hws⟩ := h
    obtain ⟨vs, rfl, _, hvs⟩ := h'
    rw [loop_spelled, loop_spelled] at hw
    have : ws = vs := by rw [lit_rounds hws, lit_rounds hvs, hw]
    subst this
    exact absurd rfl hne
  | .group e none =>
    simp only [HasEmptySeq, NoEmptyChoice] at he hn
    rw [frag] at h h'
    exact .group (traces_differ e he hn h h' hw hne)
  | .group e (some q) =>
    simp only [HasEmptySeq, NoEmptyChoice] at he hn
    rw [frag] at h h'
    obtain ⟨ws, rfl, hq, hws⟩ := h
    obtain ⟨vs, rfl, hq', hvs⟩ := h'
    rw [loop_spelled, loop_spelled] at hw
    rw [loop_spelled]
    exact rounds_differ (fun T hT => (frag_lang e he _ _ _ _).1 hT.lang)
      (fun T T' a b c d => traces_differ e he hn a b c d) hws hvs ((isSatisfied_iff q _).1 hq) ((isSatisfied_iff q _).1 hq')
      hw (by rintro rfl; exact hne rfl)

theorem tracesConcat_differ (es : List Expr) (h0 : es ≠ []) (he : ¬ AnyEmptySeq es) (hn : NoEmptyChoices es) {s t n : Nat}
    {T T' : List Mark} (h : (fragConcat es s t n).1.Traces T) (h' : (fragConcat es s t n).1.Traces T')
    (hw : spelled T = spelled T') (hne : T ≠ T') : Ambiguous (.concat es) (spelled T) := by
  match es with
  | [] => exact absurd rfl h0
  | [e] =>
    simp only [AnyEmptySeq, or_false, NoEmptyChoices, and_true] at he hn
    rw [fragConcat] at h h'
    have := Ambiguous.head (traces_differ e he hn h h' hw hne) Matches.nil
    rwa [List.append_nil] at this
  | e :: e' :: es =>
    rw [AnyEmptySeq, not_or] at he
    rw [NoEmptyChoices] at hn
    rw [fragConcat] at h h'
    · obtain ⟨U, V, rfl, hU, hV⟩ := h
      obtain ⟨U', V', rfl, hU', hV'⟩ := h'
      have mU := (frag_lang e he.1 _ _ _ _).1 hU.lang
      have mU' := (frag_lang e he.1 _ _ _ _).1 hU'.lang
      have mV := (fragConcat_lang (e' :: es) (by simp) he.2 _ _ _ _).1 hV.lang
      have mV' := (fragConcat_lang (e' :: es) (by simp) he.2 _ _ _ _).1 hV'.lang
      rw [spelled_append, spelled_append] at hw
      rw [spelled_append]
      by_cases hl : spelled U = spelled U'
      · have hr : spelled V = spelled V' := by rw [hl] at hw; exact List.append_cancel_left hw
        by_cases hUU : U = U'
        · exact .tail mU (tracesConcat_differ (e' :: es) (by simp) he.2 hn.2 hV hV' hr (by
            rintro rfl; exact hne (by rw [hUU])))
        · exact .head (traces_differ e he.1 hn.1 hU hU' hl hUU) mV
      · rcases List.append_eq_append_iff.1 hw with ⟨a, h1, h2⟩ | ⟨a, h1, h2⟩
        · rw [h2, ← List.append_assoc]
          refine .split mU (h2 ▸ mV) (h1 ▸ mU') mV' ?_
          rintro rfl
          exact hl (by simpa using h1.symm)
        · rw [h1]
          refine .split mU' (h2 ▸ mV') (h1 ▸ mU) mV ?_
          rintro rfl
          exact hl (by simpa using h1)
    · simp
    · simp

end

/-! ## Every loop has one way around -/

mutual

/-- What a group with a quantifier repeats can be read in one way only, however often it is repeated. -/
def RepeatsUnambiguous : Expr → Prop
  | .concat es => AllRepeatsUnambiguous es
  | .empty => True
  | .alt l r => RepeatsUnambiguous l ∧ RepeatsUnambiguous r
  | .lit _ _ => True
  | .group e none => RepeatsUnambiguous e
  | .group e (some _) => (∀ w, ¬ Ambiguous (.group e (some .asterisk)) w) ∧ NoEmptyChoice e ∧ RepeatsUnambiguous e

/-- `RepeatsUnambiguous` for every tree of a list. -/
def AllRepeatsUnambiguous : List Expr → Prop
  | [] => True
  | e :: es => RepeatsUnambiguous e ∧ AllRepeatsUnambiguous es

end

mutual

theorem repeatsUnambiguous_of (e : Expr) (h : ∀ b, Repeats e b → (∀ w, ¬ Ambiguous (.group b (some .asterisk)) w) ∧ NoEmptyChoice b) :
    RepeatsUnambiguous e := by
  match e with
  | .concat es =>
    simp only [RepeatsUnambiguous]
    exact allRepeatsUnambiguous_of es fun e he b hb => h b (.seq he hb)
  | .empty => simp only [RepeatsUnambiguous]
  | .alt l r =>
    simp only [RepeatsUnambiguous]
    exact ⟨repeatsUnambiguous_of l fun b hb => h b (.altL hb), repeatsUnambiguous_of r fun b hb => h b (.altR hb)⟩
  | .lit _ _ => simp only [RepeatsUnambiguous]
  | .group e none =>
    simp only [RepeatsUnambiguous]
    exact repeatsUnambiguous_of e fun b hb => h b (.group hb)
  | .group e (some q) =>
    simp only [RepeatsUnambiguous]
    exact ⟨(h e .here).1, (h e .here).2, repeatsUnambiguous_of e fun b hb => h b (.group hb)⟩

theorem allRepeatsUnambiguous_of (es : List Expr)
    (h : ∀ e ∈ es, ∀ b, Repeats e b → (∀ w, ¬ Ambiguous (.group b (some .asterisk)) w) ∧ NoEmptyChoice b) :
    AllRepeatsUnambiguous es := by
  match es with
  | [] => simp only [AllRepeatsUnambiguous]
  | e :: es =>
    simp only [AllRepeatsUnambiguous]
    exact ⟨repeatsUnambiguous_of e (h e List.mem_cons_self), allRepeatsUnambiguous_of es fun e he => h e (List.mem_cons_of_mem _ he)⟩

end

/-- Going around a loop some times. -/
def Fr.Rounds (body : Fr) (T : List Mark) : Prop := ∃ ws : List (List Mark), T = ws.flatten ∧ ∀ u ∈ ws, body.Traces u

/-- For every loop there is one way only to read a word in rounds. -/
def Fr.Once : Fr → Prop
  | .eps _ _ => True
  | .lit _ _ _ => True
  | .alt a b => a.Once ∧ b.Once
  | .seq a _ b => a.Once ∧ b.Once
  | .loop _ _ _ _ body => (∀ T T', body.Rounds T → body.Rounds T' → spelled T = spelled T' → T = T') ∧ body.Once

mutual

theorem frag_once (e : Expr) (he : ¬ HasEmptySeq e) (h : RepeatsUnambiguous e) (s t n : Nat) : (frag e s t n).1.Once := by
  match e with
  | .concat es =>
    simp only [HasEmptySeq, not_or, RepeatsUnambiguous] at he h
    rw [frag]
    exact fragConcat_once es he.2 h s t n
  | .empty => rw [frag]; trivial
  | .alt l r =>
    simp only [HasEmptySeq, not_or, RepeatsUnambiguous] at he h
    rw [frag]
    exact ⟨frag_once l he.1 h.1 _ _ _, frag_once r he.2 h.2 _ _ _⟩
  | .lit l none => rw [frag]; trivial
  | .lit l (some q) =>
    rw [frag]
    refine ⟨?_, trivial⟩
    rintro T T' ⟨ws, rfl, hws⟩ ⟨vs, rfl, hvs⟩ hw
    rw [lit_rounds hws, lit_rounds hvs, hw]
  | .group e none =>
    simp only [HasEmptySeq, RepeatsUnambiguous] at he h
    rw [frag]
    exact frag_once e he h _ _ _
  | .group e (some q) =>
    simp only [HasEmptySeq, RepeatsUnambiguous] at he h
    rw [frag]
    refine ⟨?_, frag_once e he h.2.2 _ _ _⟩
    rintro T T' ⟨ws, rfl, hws⟩ ⟨vs, rfl, hvs⟩ hw
    refine Classical.byContradiction fun hne => ?_
    exact h.1 _ (rounds_differ (q := .asterisk) (fun T hT => (frag_lang e he _ _ _ _).1 hT.lang)
      (fun T T' a b c d => traces_differ e he h.2.1 a b c d) hws hvs trivial trivial hw (by rintro rfl; exact hne rfl))

theorem fragConcat_once (es : List Expr) (he : ¬ AnyEmptySeq es) (h : AllRepeatsUnambiguous es) (s t n : Nat) :
    (fragConcat es s t n).1.Once := by
  match es with
  | [] => rw [fragConcat]; trivial
  | [e] =>
    simp only [AnyEmptySeq, or_false, AllRepeatsUnambiguous, and_true] at he h
    rw [fragConcat]
    exact frag_once e he h _ _ _
  | e :: e' :: es =>
    rw [AnyEmptySeq, not_or] at he
    rw [AllRepeatsUnambiguous] at h
    rw [fragConcat]
    · exact ⟨frag_once e he.1 h.1 _ _ _, fragConcat_once (e' :: es) he.2 h.2 _ _ _⟩
    · simp

end

/-! ## Few traces -/

/-- There are at most polynomially many traces for a word. -/
def Few (S : List Mark → Prop) : Prop :=
  ∃ c k : Nat, ∀ w : List Char, ∃ L : List (List Mark), L.length ≤ c * (w.length + 1) ^ k ∧ ∀ T, S T → spelled T = w → T ∈ L

omit [Unicode] in
theorem Few.mono {S S' : List Mark → Prop} (h : Few S) (hs : ∀ T, S' T → S T) : Few S' := by
  obtain ⟨c, k, h⟩ := h
  refine ⟨c, k, fun w => ?_⟩
  obtain ⟨L, h1, h2⟩ := h w
  exact ⟨L, h1, fun T hT hw => h2 T (hs T hT) hw⟩

omit [Unicode] in
theorem Few.some (L : List (List Mark)) : Few (· ∈ L) :=
  ⟨L.length, 0, fun w => ⟨L, by simp, fun T hT _ => hT⟩⟩

omit [Unicode] in
theorem Few.or {S S' : List Mark → Prop} (h : Few S) (h' : Few S') : Few fun T => S T ∨ S' T := by
  obtain ⟨c, k, h⟩ := h
  obtain ⟨c', k', h'⟩ := h'
  refine ⟨c + c', k + k', fun w => ?_⟩
  obtain ⟨L, h1, h2⟩ := h w
  obtain ⟨L', h1', h2'⟩ := h' w
  refine ⟨L ++ L', ?_, ?_⟩
  · have a1 : (w.length + 1) ^ k ≤ (w.length + 1) ^ (k + k') := Nat.pow_le_pow_right (Nat.succ_pos _) (Nat.le_add_right _ _)
    have a2 : (w.length + 1) ^ k' ≤ (w.length + 1) ^ (k + k') := Nat.pow_le_pow_right (Nat.succ_pos _) (Nat.le_add_left _ _)
    rw [List.length_append, Nat.add_mul]
    exact Nat.add_le_add (Nat.le_trans h1 (Nat.mul_le_mul_left _ a1)) (Nat.le_trans h1' (Nat.mul_le_mul_left _ a2))
  · rintro T (hT | hT) hw
    · exact List.mem_append_left _ (h2 T hT hw)
    · exact List.mem_append_right _ (h2' T hT hw)

omit [Unicode] in
theorem sum_le_length_mul {α : Type} (f : α → Nat) (N : Nat) : ∀ l : List α, (∀ x ∈ l, f x ≤ N) → (l.map f).sum ≤ l.length * N
  | [], _ => by simp
  | x :: l, h => by
    have := sum_le_length_mul f N l fun y hy => h y (List.mem_cons_of_mem _ hy)
    have := h x List.mem_cons_self
    rw [List.map_cons, List.sum_cons, List.length_cons, Nat.succ_mul]
    omega

omit [Unicode] in
theorem Few.cat {S S' : List Mark → Prop} (h : Few S) (h' : Few S') :
    Few fun T => ∃ U V, T = U ++ V ∧ S U ∧ S' V := by
  obtain ⟨c, k, h⟩ := h
  obtain ⟨c', k', h'⟩ := h'
  obtain ⟨L, h1, h2⟩ : ∃ L : List Char → List (List Mark), (∀ w, (L w).length ≤ c * (w.length + 1) ^ k) ∧
      ∀ w T, S T → spelled T = w → T ∈ L w :=
    ⟨fun w => (h w).choose, fun w => (h w).choose_spec.1, fun w => (h w).choose_spec.2⟩
  obtain ⟨L', h1', h2'⟩ : ∃ L : List Char → List (List Mark), (∀ w, (L w).length ≤ c' * (w.length + 1) ^ k') ∧
      ∀ w T, S' T → spelled T = w → T ∈ L w :=
    ⟨fun w => (h' w).choose, fun w => (h' w).choose_spec.1, fun w => (h' w).choose_spec.2⟩
  refine ⟨c * c', k + k' + 1, fun w => ?_⟩
  refine ⟨(List.range (w.length + 1)).flatMap fun i => (L (w.take i)).flatMap fun U => (L' (w.drop i)).map fun V => U ++ V, ?_, ?_⟩
  · rw [List.length_flatMap]
    refine Nat.le_trans (sum_le_length_mul _ (c * (w.length + 1) ^ k * (c' * (w.length + 1) ^ k')) _ ?_) ?_
    · intro i hi
      rw [List.length_flatMap]
      refine Nat.le_trans (sum_le_length_mul _ (c' * (w.length + 1) ^ k') _ ?_) (Nat.mul_le_mul_right _ ?_)
      · intro U _
        rw [List.length_map]
        refine Nat.le_trans (h1' _) (Nat.mul_le_mul_left _ (Nat.pow_le_pow_left ?_ _))
        rw [List.length_drop]
        omega
      · refine Nat.le_trans (h1 _) (Nat.mul_le_mul_left _ (Nat.pow_le_pow_left ?_ _))
        rw [List.length_take]
        omega
    · rw [List.length_range]
      apply Nat.le_of_eq
      rw [Nat.pow_succ, Nat.pow_add]
      ac_rfl
  · rintro T ⟨U, V, rfl, hU, hV⟩ rfl
    rw [spelled_append]
    refine List.mem_flatMap.2 ⟨(spelled U).length, ?_, List.mem_flatMap.2 ⟨U, ?_, List.mem_map.2 ⟨V, ?_, rfl⟩⟩⟩
    · rw [List.mem_range, List.length_append]
      omega
    · rw [List.take_left]
      exact h2 _ U hU rfl
    · rw [List.drop_left]
      exact h2' _ V hV rfl

omit [Unicode] in
theorem Few.unique {S : List Mark → Prop} (h : ∀ T T', S T → S T' → spelled T = spelled T' → T = T') : Few S := by
  refine ⟨1, 0, fun w => ?_⟩
  by_cases hw : ∃ T, S T ∧ spelled T = w
  · obtain ⟨T, hT, rfl⟩ := hw
    exact ⟨[T], by simp, fun T' hT' hw => by rw [h T' T hT' hT hw]; simp⟩
  · exact ⟨[], by simp, fun T hT hw' => absurd ⟨T, hT, hw'⟩ hw⟩

theorem Fr.mid_few {fr : Fr} (h : fr.Once) : Few fr.Mid := by
  induction fr with
  | eps s t => exact (Few.some [[], [(s, .eps, t, [])]]).mono fun T hT => by simpa [Fr.Mid] using hT
  | lit s t l =>
    refine ⟨1, 1, fun w => ⟨[] :: w.map fun c => [(s, .literal l, t, [c])], by simp, ?_⟩⟩
    rintro T (rfl | ⟨c, rfl⟩) hw
    · exact List.mem_cons_self
    · obtain rfl : [c] = w := by simpa [spelled] using hw
      simp
  | alt a b iha ihb => exact (iha h.1).or (ihb h.2)
  | seq a m b iha ihb => exact (iha h.1).cat (ihb h.2)
  | loop s x t q body ih =>
    have hb := ih h.2
    refine ((Few.some [[], [(s, .eps, x, [])]]).cat (hb.cat ((Few.unique h.1).cat
      (hb.cat (Few.some [[], [(x, .quantified q, t, [])]]))))).mono ?_
    rintro T ⟨A, U, ws, V, Z, rfl, hA, hU, hws, hV, hZ⟩
    exact ⟨A, _, rfl, by simpa using hA, U, _, rfl, hU, _, _, rfl, ⟨ws, rfl, hws⟩, V, Z, rfl, hV, by simpa using hZ⟩

end Pango.Fsm

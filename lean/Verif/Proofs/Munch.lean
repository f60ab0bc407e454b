import Verif.Proofs.Lexer
import Verif.Spec.Lexing

/-!
# The loop of the lexer over a machine that recognizes rules
-/

namespace Pango.Lex

open Pango Pango.Fsm Pango.Regex Pango.Spec

variable {σ K : Type}

/-- What is known of a machine: `Sim s w` says that the machine is in state `s` after reading `w`, and
`Live w` that it can read `w`. -/
structure Reads (m : Machine σ) (gs : Generators K) (rules : List (List Char → Prop))
    (Live : List Char → Prop) (Sim : σ → List Char → Prop) : Prop where
  keys : (gs.map Prod.fst).Pairwise (· < ·)
  start : ∀ {s}, m.start = .ok s → Sim s []
  canFeed : ∀ {s w c b}, Sim s w → m.canFeed s c = .ok b → (b = true ↔ Live (w ++ [c]))
  feed : ∀ {s s' w c b}, Sim s w → m.feed s c = .ok (s', b) →
    Sim s' (w ++ [c]) ∧ (b = true ↔ AnyMatch rules (w ++ [c]))
  isAccepting : ∀ {s w b}, Sim s w → m.isAccepting s = .ok b → (b = true ↔ AnyMatch rules w)
  sorted : ∀ {s w}, Sim s w → (m.finals s).Pairwise (· < ·)
  finals : ∀ {s w}, Sim s w → ∀ f, f ∈ m.finals s ↔
    ∃ (i : Nat) (M : List Char → Prop) (g : List Char → K), gs[i]? = some (f, g) ∧ rules[i]? = some M ∧ M w
  live0 : Live []
  live : ∀ {w v}, AnyMatch rules (w ++ v) → Live w
  live' : ∀ {w v}, Live (w ++ v) → Live w

/-- The kind is what the generator of rule `i` makes of the source. -/
def KindOf (gs : Generators K) (i : Nat) (source : List Char) (k : K) : Prop :=
  ∃ f g, gs[i]? = some (f, g) ∧ k = g source

variable {m : Machine σ} {gs : Generators K} {rules : List (List Char → Prop)}
  {Live : List Char → Prop} {Sim : σ → List Char → Prop}

theorem get_of_keys {f : Nat} {g : List Char → K} : ∀ {gs : Generators K} {i : Nat},
    (gs.map Prod.fst).Pairwise (· < ·) → gs[i]? = some (f, g) → gs.get f = some g := by
  intro gs
  induction gs with
  | nil => intro i _ h; simp at h
  | cons x gs ih =>
    intro i hk h
    simp only [List.map_cons, List.pairwise_cons] at hk
    cases i with
    | zero =>
      simp only [List.getElem?_cons_zero, Option.some.injEq] at h
      subst h
      simp [Generators.get]
    | succ i =>
      simp only [List.getElem?_cons_succ] at h
      have hlt := hk.1 f (List.mem_map.2 ⟨_, List.mem_of_getElem? h, rfl⟩)
      have := ih hk.2 h
      simp only [Generators.get] at this ⊢
      rw [List.find?_cons_of_neg (by simp; omega)]
      exact this

theorem key_lt {f f' : Nat} {g g' : List Char → K} {i j : Nat} (hk : (gs.map Prod.fst).Pairwise (· < ·))
    (hi : gs[i]? = some (f, g)) (hj : gs[j]? = some (f', g')) (hij : i < j) : f < f' := by
  have h1 := List.getElem?_eq_some_iff.1 hi
  have h2 := List.getElem?_eq_some_iff.1 hj
  obtain ⟨b1, e1⟩ := h1
  obtain ⟨b2, e2⟩ := h2
  have := List.pairwise_iff_getElem.1 hk i j (by simpa using b1) (by simpa using b2) hij
  simpa [e1, e2] using this

/-- The first final state is that of the first rule that matches. -/
theorem Reads.first (R : Reads m gs rules Live Sim) {s : σ} {w : List Char} {f : Nat} {fs : List Nat}
    {g : List Char → K} (hs : Sim s w) (hf : m.finals s = f :: fs) (hg : gs.get f = some g) :
    ∃ i, FirstMatch rules w i ∧ ∀ u, KindOf gs i u (g u) := by
  obtain ⟨i, M, g', h1, h2, h3⟩ := (R.finals hs f).1 (by rw [hf]; simp)
  have := get_of_keys R.keys h1
  rw [hg] at this
  cases this
  refine ⟨i, ⟨⟨M, h2, h3⟩, ?_⟩, fun u => ⟨f, g, h1, rfl⟩⟩
  intro j N hj hN hw
  have hlen : j < gs.length := by
    have := (List.getElem?_eq_some_iff.1 h1).1
    omega
  have hj' : gs[j]? = some (gs[j].1, gs[j].2) := List.getElem?_eq_getElem hlen
  have hmem := (R.finals hs gs[j].1).2 ⟨j, N, gs[j].2, hj', hN, hw⟩
  have hlt := key_lt R.keys hj' h1 hj
  have hp := R.sorted hs
  rw [hf] at hp hmem
  rcases List.mem_cons.1 hmem with h | h
  · omega
  · have := (List.pairwise_cons.1 hp).1 _ h
    omega

/-- What the iterator has not handed out yet. -/
def InputIter.rest (it : InputIter) : List (Nat × Char) := it.prev ++ it.iter

/-- The characters of a list with positions. -/
def chars (l : List (Nat × Char)) : List Char := l.map Prod.snd

@[simp] theorem chars_append (a b : List (Nat × Char)) : chars (a ++ b) = chars a ++ chars b := by
  simp [chars]

@[simp] theorem chars_nil : chars [] = [] := rfl

@[simp] theorem chars_cons (p : Nat) (c : Char) (l : List (Nat × Char)) : chars ((p, c) :: l) = c :: chars l :=
  rfl

/-- A token was taken from the front of `all`.  `lost` are the characters that disappear. -/
structure Took (gs : Generators K) (rules : List (List Char → Prop)) (all : List (Nat × Char))
    (prev : List (Nat × Char)) (t : Tok K) (it' : InputIter) : Prop where
  fresh : it'.source = [] ∧ it'.suffix = []
  split : ∃ src lost, all = src ++ (it'.prev ++ (lost ++ it'.iter)) ∧ t.source = chars src ∧
    (∀ e, src.getLast? = some e → t.pos.2 = e.1 + 1) ∧ lost.length ≤ prev.length - 1
  longest : Longest rules (chars all) t.source
  kind : ∃ i, FirstMatch rules t.source i ∧ KindOf gs i t.source t.kind

/-- No token was found in front of `all`. -/
def NotFound (rules : List (List Char → Prop)) (Live : List Char → Prop) (Sim : σ → List Char → Prop)
    (all : List Char) : Prop :=
  NoMatch rules all ∨ (Live all ∧ (∃ s, Sim s all) ∧ ¬ AnyMatch rules all)

/-- What a call found in front of `all`. -/
def Found (gs : Generators K) (rules : List (List Char → Prop)) (Live : List Char → Prop)
    (Sim : σ → List Char → Prop) (all prev : List (Nat × Char)) (it' : InputIter) : Option (Tok K) → Prop
  | some t => Took gs rules all prev t it'
  | none => NotFound rules Live Sim (chars all)

/-- What the loop knows of the token that it has found so far, after reading `src ++ suf`. -/
def Best (gs : Generators K) (rules : List (List Char → Prop)) (src suf : List Char) : Option K → Prop
  | none => src = [] ∧ ∀ v, v ≠ [] → v <+: suf → ¬ AnyMatch rules v
  | some k => src ≠ [] ∧ AnyMatch rules src ∧
      (∀ v, v <+: src ++ suf → AnyMatch rules v → v.length ≤ src.length) ∧
      ∃ i, FirstMatch rules src i ∧ KindOf gs i src k

theorem prefix_snoc {α : Type} {v w : List α} {c : α} (h : v <+: w ++ [c]) : v <+: w ∨ v = w ++ [c] := by
  obtain ⟨t, ht⟩ := h
  rcases List.eq_nil_or_concat t with rfl | ⟨t', d, rfl⟩
  · right; simpa using ht
  · left
    rw [List.concat_eq_append, ← List.append_assoc] at ht
    obtain ⟨h1, _⟩ := List.append_inj' ht rfl
    exact ⟨t', h1⟩

theorem prefix_split {α : Type} {v a b : List α} (h : v <+: a ++ b) : v <+: a ∨ ∃ t, v = a ++ t := by
  rcases Nat.le_total v.length a.length with hle | hle
  · exact .inl (List.prefix_of_prefix_length_le h (List.prefix_append a b) hle)
  · obtain ⟨t, ht⟩ := List.prefix_of_prefix_length_le (List.prefix_append a b) h hle
    exact .inr ⟨t, ht.symm⟩

/-- The loop finds the longest match. -/
theorem Lexes.found (R : Reads m gs rules Live Sim) {sim : σ} {kind : Option K} {it it' : InputIter}
    {r : Option (Tok K)} (h : Lexes m gs sim kind it r it') : ∀ {src : List (Nat × Char)},
    it.source = chars src → (∀ e, src.getLast? = some e → it.pos.2 = e.1 + 1) →
    Sim sim (chars src ++ chars it.suffix) → Live (chars src ++ chars it.suffix) →
    Best gs rules (chars src) (chars it.suffix) kind →
    Found gs rules Live Sim (src ++ (it.suffix ++ it.rest)) it.prev it' r := by
  -- nothing beyond a character that cannot be read
  have dead : ∀ {sim : σ} {it it1 : InputIter} {ch : Char} {w : List Char}, it.next = (some ch, it1) →
      m.canFeed sim ch = .ok false → Sim sim w → ∀ v, v <+: w ++ chars it.rest → AnyMatch rules v → v <+: w := by
    intro sim it it1 ch w hn hcf hs v hv hm
    obtain ⟨p, h1, _⟩ := next_some hn
    rcases prefix_split hv with h | ⟨t, rfl⟩
    · exact h
    · rw [InputIter.rest, h1] at hv
      cases t with
      | nil => simp
      | cons d t =>
        have hd : d = ch := by
          have := (List.prefix_append_right_inj w).1 hv
          simp only [chars_cons] at this
          exact (List.cons_prefix_cons.1 this).1
        subst hd
        have : Live (w ++ [d]) := R.live (v := t) (by simpa using hm)
        have := (R.canFeed hs hcf).2 this
        cases this
  induction h with
  | stopNone hn hcf =>
    intro src hsrc hlast hs hl hbest
    obtain ⟨hs0, hno⟩ := hbest
    left
    intro v hv hp hm
    rw [chars_append, chars_append, ← List.append_assoc] at hp
    have := dead hn hcf hs v hp hm
    rw [hs0, List.nil_append] at this
    exact hno v hv this hm
  | @stopSome sim k it it1 ch hn hcf =>
    intro src hsrc hlast hs hl hbest
    obtain ⟨p, h1, h2, h3, h4, h5, h6⟩ := next_some hn
    obtain ⟨hne, hm, hlong, i, hfirst, hkind⟩ := hbest
    have hsource : it1.source = chars src := by rw [h3, hsrc]
    refine ⟨⟨rfl, rfl⟩, ⟨src, it1.prev, ?_, hsource, ?_, ?_⟩, ⟨?_, ?_, ?_, ?_⟩, i, ?_, ?_⟩
    · simp only [InputIter.rest, InputIter.consumeToken, h1, h2]
      simp
    · intro e he
      simp only [h4]
      exact hlast e he
    · by_cases hp : it.prev = []
      · rw [h5 hp]; simp
      · have := congrArg List.length (h6 hp)
        simp only [List.length_cons] at this
        omega
    · rw [hsource]; exact hne
    · rw [hsource]; exact ⟨_, (chars_append _ _).symm⟩
    · rw [hsource]; exact hm
    · intro v hv hvm
      rw [hsource]
      rw [chars_append, chars_append, ← List.append_assoc] at hv
      exact hlong v (dead hn hcf hs v hv hvm) hvm
    · rw [hsource]; exact hfirst
    · rw [hsource]; exact hkind
  | @accept sim sim' kind it it1 it2 ch f fs gen r hn hcf hfeed hfin hget _ ih =>
    intro src hsrc hlast hs hl hbest
    obtain ⟨p, h1, h2, h3, h4, h5, h6⟩ := next_some hn
    obtain ⟨hs', hb⟩ := R.feed hs hfeed
    have hm := hb.1 rfl
    have hacc : it1.acceptSuffix.source = chars (src ++ (it.suffix ++ [(p, ch)])) := by
      simp [InputIter.acceptSuffix, h3, h2, hsrc, chars]
    have hw : chars (src ++ (it.suffix ++ [(p, ch)])) = chars src ++ chars it.suffix ++ [ch] := by simp
    have hsuf : it1.acceptSuffix.suffix = [] := rfl
    obtain ⟨i, hfirst, hkind⟩ := R.first hs' hfin hget
    have := ih (src := src ++ (it.suffix ++ [(p, ch)])) hacc ?_ ?_ ?_ ?_
    · have e1 : src ++ (it.suffix ++ [(p, ch)]) ++ (it1.acceptSuffix.suffix ++ it1.acceptSuffix.rest) =
          src ++ (it.suffix ++ it.rest) := by
        simp only [hsuf, InputIter.rest, h1]
        simp [InputIter.acceptSuffix]
      have e2 : it1.acceptSuffix.prev.length ≤ it.prev.length - 1 ∨ it1.acceptSuffix.prev = [] := by
        simp only [InputIter.acceptSuffix]
        by_cases hp : it.prev = []
        · exact .inr (h5 hp)
        · left
          have := congrArg List.length (h6 hp)
          simp only [List.length_cons] at this
          omega
      rw [e1] at this
      cases r with
      | none => exact this
      | some t =>
        obtain ⟨a1, ⟨s, l, a2, a3, a4, a5⟩, a6, a7⟩ := this
        refine ⟨a1, ⟨s, l, a2, a3, a4, ?_⟩, a6, a7⟩
        rcases e2 with e2 | e2
        · omega
        · rw [e2] at a5; simp only [List.length_nil] at a5; omega
    · intro e he
      rw [← List.append_assoc, List.getLast?_concat] at he
      cases he
      simp [InputIter.acceptSuffix, h2]
    · rw [hsuf, chars_nil, List.append_nil, hw]
      exact hs'
    · rw [hsuf, chars_nil, List.append_nil, hw]
      exact (R.canFeed hs hcf).1 rfl
    · refine ⟨by simp, by rw [hw]; exact hm, ?_, i, by rw [hw]; exact hfirst, ?_⟩
      · intro v hv _
        rw [hsuf, chars_nil, List.append_nil] at hv
        exact hv.length_le
      · rw [hacc]; exact hkind _
  | @step sim sim' kind it it1 it2 ch r hn hcf hfeed _ ih =>
    intro src hsrc hlast hs hl hbest
    obtain ⟨p, h1, h2, h3, h4, h5, h6⟩ := next_some hn
    obtain ⟨hs', hb⟩ := R.feed hs hfeed
    have hm : ¬ AnyMatch rules (chars src ++ chars it.suffix ++ [ch]) := fun h => by
      have := hb.2 h; cases this
    have hsuf : chars it1.suffix = chars it.suffix ++ [ch] := by rw [h2]; simp
    have := ih (src := src) (by rw [h3, hsrc]) (by rw [h4]; exact hlast) ?_ ?_ ?_
    · have e1 : src ++ (it1.suffix ++ it1.rest) = src ++ (it.suffix ++ it.rest) := by
        simp only [InputIter.rest, h1, h2]
        simp
      have e2 : it1.prev.length ≤ it.prev.length - 1 ∨ it1.prev = [] := by
        by_cases hp : it.prev = []
        · exact .inr (h5 hp)
        · left
          have := congrArg List.length (h6 hp)
          simp only [List.length_cons] at this
          omega
      rw [e1] at this
      cases r with
      | none => exact this
      | some t =>
        obtain ⟨a1, ⟨s, l, a2, a3, a4, a5⟩, a6, a7⟩ := this
        refine ⟨a1, ⟨s, l, a2, a3, a4, ?_⟩, a6, a7⟩
        rcases e2 with e2 | e2
        · omega
        · rw [e2] at a5; simp only [List.length_nil] at a5; omega
    · rw [hsuf, ← List.append_assoc]; exact hs'
    · rw [hsuf, ← List.append_assoc]; exact (R.canFeed hs hcf).1 rfl
    · rw [hsuf]
      cases kind with
      | none =>
        obtain ⟨hs0, hno⟩ := hbest
        refine ⟨hs0, fun v hv hp hvm => ?_⟩
        rcases prefix_snoc hp with hp | rfl
        · exact hno v hv hp hvm
        · rw [hs0] at hm; exact hm hvm
      | some k =>
        obtain ⟨hne, hm0, hlong, hkind⟩ := hbest
        refine ⟨hne, hm0, fun v hp hvm => ?_, hkind⟩
        rw [← List.append_assoc] at hp
        rcases prefix_snoc hp with hp | rfl
        · exact hlong v hp hvm
        · exact absurd hvm hm
  | @eofSome sim k it it1 hn hacc =>
    intro src hsrc hlast hs hl hbest
    obtain ⟨rfl, h1, h2⟩ := next_none hn
    obtain ⟨hne, hm, hlong, i, hfirst, hkind⟩ := hbest
    have hw := (R.isAccepting hs hacc).1 rfl
    have hsuf : it1.suffix = [] := by
      have := hlong _ (List.prefix_refl _) hw
      simp only [List.length_append, chars, List.length_map] at this
      exact List.length_eq_zero_iff.1 (by omega)
    refine ⟨⟨rfl, rfl⟩, ⟨src, [], ?_, hsrc, hlast, by simp⟩, ⟨?_, ?_, ?_, ?_⟩, i, ?_, ?_⟩
    · simp [InputIter.rest, InputIter.consumeToken, h1, h2]
    · rw [hsrc]; exact hne
    · rw [hsrc]; exact ⟨_, (chars_append _ _).symm⟩
    · rw [hsrc]; exact hm
    · intro v hv hvm
      rw [hsrc]
      refine hlong v ?_ hvm
      simpa [InputIter.rest, h1, h2] using hv
    · rw [hsrc]; exact hfirst
    · rw [hsrc]; exact hkind
  | @eofNone sim kind it it1 b hn hacc hb =>
    intro src hsrc hlast hs hl hbest
    obtain ⟨rfl, h1, h2⟩ := next_none hn
    have hall : chars (src ++ (it1.suffix ++ it1.rest)) = chars src ++ chars it1.suffix := by
      simp [InputIter.rest, h1, h2]
    simp only [Found, NotFound]
    rw [hall]
    cases kind with
    | none =>
      left
      obtain ⟨hs0, hno⟩ := hbest
      rw [hs0, List.nil_append]
      exact hno
    | some k =>
      right
      have hb' : b = false := by simpa using hb
      subst hb'
      have hno : ¬ AnyMatch rules (chars src ++ chars it1.suffix) := fun h => by
        have := (R.isAccepting hs hacc).2 h; cases this
      exact ⟨hl, ⟨_, hs⟩, hno⟩

/-- An iterator between two calls. -/
def Fresh (it : InputIter) : Prop := it.source = [] ∧ it.suffix = []

/-- What one call finds in front of what is left. -/
theorem lexNext_found (R : Reads m gs rules Live Sim) {it it' : InputIter} {r : Option (Tok K)}
    (hf : Fresh it) (h : lexNext m gs it = .ok (r, it')) : Found gs rules Live Sim it.rest it.prev it' r := by
  obtain ⟨sim, h1, h2⟩ := lexNext_ok h
  have := h2.found R (src := []) hf.1 (by simp) (by rw [hf.2]; exact R.start h1) (by rw [hf.2]; exact R.live0)
    ⟨rfl, by rw [hf.2]; intro v hv hp; exact absurd (List.prefix_nil.1 hp) hv⟩
  simpa [hf.2] using this

/-! ## One character of lookahead -/

/-- Once something is matched, everything that can be read is matched. -/
def OneAhead (rules : List (List Char → Prop)) (Live : List Char → Prop) : Prop :=
  ∀ w c, w ≠ [] → AnyMatch rules w → Live (w ++ [c]) → AnyMatch rules (w ++ [c])

/-- What is pushed back is at most one character, and `None` means that nothing matches. -/
def Short (rules : List (List Char → Prop)) (all : List Char) (it' : InputIter) : Option (Tok K) → Prop
  | some _ => it'.prev.length ≤ 1
  | none => NoMatch rules all

theorem Lexes.short (R : Reads m gs rules Live Sim) (oa : OneAhead rules Live) {sim : σ} {kind : Option K}
    {it it' : InputIter} {r : Option (Tok K)} (h : Lexes m gs sim kind it r it') :
    ∀ {w : List Char}, Sim sim w → w = it.source ++ chars it.suffix →
    (kind = none → it.source = [] ∧ ∀ v, v ≠ [] → v <+: w → ¬ AnyMatch rules v) →
    (kind ≠ none → it.source ≠ [] ∧ it.suffix = [] ∧ AnyMatch rules w) →
    Short rules (w ++ chars it.rest) it' r := by
  induction h with
  | @stopNone sim it it1 ch hn hcf =>
    intro w hs hw h0 _ v hv hp hm
    obtain ⟨p, h1, _⟩ := next_some hn
    rcases prefix_split hp with hp' | ⟨t, rfl⟩
    · exact (h0 rfl).2 v hv hp' hm
    · rw [InputIter.rest, h1] at hp
      cases t with
      | nil => exact (h0 rfl).2 _ hv (by simp) hm
      | cons d t =>
        have hd : d = ch := by
          have := (List.prefix_append_right_inj w).1 hp
          simp only [chars_cons] at this
          exact (List.cons_prefix_cons.1 this).1
        subst hd
        have : Live (w ++ [d]) := R.live (v := t) (by simpa using hm)
        have := (R.canFeed hs hcf).2 this
        cases this
  | @stopSome sim k it it1 ch hn hcf =>
    intro w hs hw _ h1
    obtain ⟨p, _, h2, _⟩ := next_some hn
    have := (h1 (by simp)).2.1
    simp [Short, InputIter.consumeToken, h2, this]
  | @accept sim sim' kind it it1 it2 ch f fs gen r hn hcf hfeed hfin hget _ ih =>
    intro w hs hw _ _
    obtain ⟨p, h1, h2, h3, h4, h5, h6⟩ := next_some hn
    obtain ⟨hs', hb⟩ := R.feed hs hfeed
    have hw' : w ++ [ch] = it1.acceptSuffix.source ++ chars it1.acceptSuffix.suffix := by
      simp [InputIter.acceptSuffix, h3, h2, hw, chars]
    have := ih hs' hw' (by simp) (fun _ => ⟨by simp [InputIter.acceptSuffix, h2], rfl, hb.1 rfl⟩)
    have e : w ++ [ch] ++ chars it1.acceptSuffix.rest = w ++ chars it.rest := by
      simp [InputIter.rest, h1, InputIter.acceptSuffix]
    rwa [e] at this
  | @step sim sim' kind it it1 it2 ch r hn hcf hfeed _ ih =>
    intro w hs hw h0 hk
    obtain ⟨p, h1, h2, h3, h4, h5, h6⟩ := next_some hn
    obtain ⟨hs', hb⟩ := R.feed hs hfeed
    have hno : ¬ AnyMatch rules (w ++ [ch]) := fun h => by have := hb.2 h; cases this
    have hkind : kind = none := by
      cases kind with
      | none => rfl
      | some k =>
        obtain ⟨k1, k2, k3⟩ := hk (by simp)
        refine absurd (oa w ch ?_ k3 ((R.canFeed hs hcf).1 rfl)) hno
        rw [hw, k2]
        simpa using k1
    have := ih (w := w ++ [ch]) hs' (by rw [hw, h2, h3]; simp) (fun _ => ?_) (fun h => absurd hkind h)
    · have e : w ++ [ch] ++ chars it1.rest = w ++ chars it.rest := by
        simp [InputIter.rest, h1]
      rwa [e] at this
    · refine ⟨by rw [h3]; exact (h0 hkind).1, fun v hv hp hvm => ?_⟩
      rcases prefix_snoc hp with hp | rfl
      · exact (h0 hkind).2 v hv hp hvm
      · exact hno hvm
  | @eofSome sim k it it1 hn hacc =>
    intro w hs hw _ h1
    obtain ⟨rfl, _, _⟩ := next_none hn
    have := (h1 (by simp)).2.1
    simp [Short, InputIter.consumeToken, this]
  | @eofNone sim kind it it1 b hn hacc hb =>
    intro w hs hw h0 hk
    obtain ⟨rfl, h1, h2⟩ := next_none hn
    have hkind : kind = none := by
      cases kind with
      | none => rfl
      | some k =>
        have hb' : b = false := by simpa using hb
        subst hb'
        have := (R.isAccepting hs hacc).2 (hk (by simp)).2.2
        cases this
    have := (h0 hkind).2
    intro v hv hp
    simp only [InputIter.rest, h1, h2, List.append_nil, chars_nil] at hp
    exact this v hv hp

/-- What is left is what the input has from the end of the last token on. -/
structure Exact (input : List Char) (it : InputIter) : Prop where
  fresh : Fresh it
  rest : it.rest = enumFrom it.pos.1 (input.drop it.pos.1)
  prev : it.prev.length ≤ 1
  start : it.pos.1 ≤ input.length

theorem exact_new (input : List Char) : Exact input (InputIter.new input) :=
  ⟨⟨rfl, rfl⟩, rfl, by simp [InputIter.new], Nat.zero_le _⟩

theorem chars_enumFrom (i : Nat) (u : List Char) : chars (enumFrom i u) = u := enumFrom_snd i u

theorem enumFrom_length (i : Nat) (u : List Char) : (enumFrom i u).length = u.length := by
  have := congrArg List.length (enumFrom_snd i u)
  simpa using this

theorem enumFrom_last {u : List Char} {e : Nat × Char} : ∀ {i : Nat},
    (enumFrom i u).getLast? = some e → e.1 + 1 = i + u.length := by
  induction u with
  | nil => intro i h; simp [enumFrom] at h
  | cons c u ih =>
    intro i h
    cases u with
    | nil =>
      simp only [enumFrom, List.getLast?_singleton, Option.some.injEq] at h
      subst h
      rfl
    | cons d u =>
      rw [enumFrom, enumFrom, List.getLast?_cons_cons] at h
      have := ih (i := i + 1) h
      simp only [List.length_cons] at this ⊢
      omega

/-- What a call does if one character of lookahead is enough. -/
def ExactStep (gs : Generators K) (rules : List (List Char → Prop)) (input : List Char) (start : Nat)
    (it' : InputIter) : Option (Tok K) → Prop
  | some t => Exact input it' ∧ it'.pos.1 = t.pos.2 ∧ t.pos.1 = start ∧
      t.pos.2 = start + t.source.length ∧ t.pos.2 ≤ input.length ∧
      t.source = (input.drop start).take t.source.length ∧
      Longest rules (input.drop start) t.source ∧ ∃ i, FirstMatch rules t.source i ∧ KindOf gs i t.source t.kind
  | none => NoMatch rules (input.drop start)

theorem lexNext_exact (R : Reads m gs rules Live Sim) (oa : OneAhead rules Live) {input : List Char}
    {it it' : InputIter} {r : Option (Tok K)} (hi : Exact input it)
    (h : lexNext m gs it = .ok (r, it')) : ExactStep gs rules input it.pos.1 it' r := by
  have hall : chars it.rest = input.drop it.pos.1 := by rw [hi.rest, chars_enumFrom]
  have hfound := lexNext_found R hi.fresh h
  have hshort : Short rules (chars it.rest) it' r := by
    obtain ⟨sim, h1, h2⟩ := lexNext_ok h
    have := h2.short R oa (w := []) (R.start h1) (by rw [hi.fresh.1, hi.fresh.2]; rfl)
      (fun _ => ⟨hi.fresh.1, fun v hv hp => absurd (List.prefix_nil.1 hp) hv⟩) (by simp)
    simpa using this
  rw [hall] at hshort
  cases r with
  | none => exact hshort
  | some t =>
    obtain ⟨a1, ⟨src, lost, a2, a3, a4, a5⟩, a6, a7⟩ := hfound
    have hlost : lost = [] := by
      have := hi.prev
      exact List.length_eq_zero_iff.1 (by omega)
    subst hlost
    rw [hall] at a6
    -- positions
    obtain ⟨hheld⟩ : Nonempty (Held input it) := ⟨⟨hi.start, [], hi.fresh.1, by
      rw [hi.fresh.2]
      show ([] ++ ([] ++ it.rest)).Sublist _
      rw [hi.rest]; simp, by simp⟩⟩
    obtain ⟨_, ht⟩ := lexNext_held h hheld
    simp only [After] at ht
    obtain ⟨ht1, ht2, _⟩ := ht
    have hlen : t.source.length = src.length := by rw [a3]; simp [chars]
    have hsrc : src = enumFrom it.pos.1 ((input.drop it.pos.1).take src.length) := by
      have := congrArg (List.take src.length) (a2.symm.trans hi.rest)
      rw [List.take_left, take_enumFrom] at this
      exact this
    have hrest : it'.prev ++ it'.iter = enumFrom (it.pos.1 + src.length)
        ((input.drop it.pos.1).drop src.length) := by
      have := congrArg (List.drop src.length) (a2.symm.trans hi.rest)
      rw [List.drop_left, drop_enumFrom] at this
      simpa using this
    have hne : src ≠ [] := by
      rintro rfl
      exact a6.nonempty (by rw [a3]; rfl)
    have hle : src.length ≤ (input.drop it.pos.1).length := by
      have := congrArg List.length (a2.symm.trans hi.rest)
      simp only [List.length_append, enumFrom_length] at this
      omega
    have hend : t.pos.2 = it.pos.1 + src.length := by
      obtain ⟨e, he⟩ := List.getLast?_isSome.2 hne |> Option.isSome_iff_exists.1
      rw [a4 e he]
      rw [hsrc] at he
      have := enumFrom_last he
      rw [List.length_take, Nat.min_eq_left hle] at this
      omega
    simp only [List.length_drop] at hle
    have hst := hi.start
    refine ⟨⟨a1, ?_, hshort, ?_⟩, ht2, ht1.start, by rw [hlen]; exact hend, by omega, ?_, a6, a7⟩
    · rw [InputIter.rest, hrest, ht2, hend, List.drop_drop]
    · rw [ht2]; omega
    · rw [hlen, a3]
      conv => lhs; rw [hsrc]
      rw [chars_enumFrom]

end Pango.Lex

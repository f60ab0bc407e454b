import Verif.Proofs.LexFuel
import Verif.Proofs.LexParse
import Verif.Proofs.Machine

/-!
# The SLR(1) machine on a stream of tokens
-/

namespace Pango.Parse

open Pango Pango.Lex Pango.Fsm Pango.Spec

section Stream

variable {σ σ' T : Type} {m : Machine σ} {gs : Generators T}

/-- The calls behind a stream. -/
theorem streamOf_calls {n : Nat} {it : InputIter} {ts : List (Tok T)} {fin : InputEnd}
    (h : streamOf m gs n it = (ts, fin)) :
    (∃ it', lexCalls m gs ts.length it = .ok (ts.map some, it')) ∧
      (fin = .ok () → ∃ it', lexCalls m gs (ts.length + 1) it = .ok (ts.map some ++ [none], it')) := by
  induction n generalizing it ts with
  | zero =>
    rw [streamOf] at h
    cases h
    exact ⟨⟨it, rfl⟩, nofun⟩
  | succ n ih =>
    rw [streamOf] at h
    cases hl : lexNext m gs it with
    | panic => rw [hl] at h; cases h; exact ⟨⟨it, rfl⟩, nofun⟩
    | diverge => rw [hl] at h; cases h; exact ⟨⟨it, rfl⟩, nofun⟩
    | ok r =>
      obtain ⟨tok, it1⟩ := r
      rw [hl] at h
      cases tok with
      | none => cases h; exact ⟨⟨it, rfl⟩, fun _ => ⟨it1, by simp [lexCalls, hl]⟩⟩
      | some t =>
        simp only [Prod.mk.injEq] at h
        obtain ⟨rfl, rfl⟩ := h
        obtain ⟨⟨it2, h1⟩, h2⟩ := ih (it := it1) (ts := (streamOf m gs n it1).1) rfl
        refine ⟨⟨it2, by simp [lexCalls, hl, h1]⟩, fun hf => ?_⟩
        obtain ⟨it3, h3⟩ := h2 hf
        refine ⟨it3, ?_⟩
        rw [List.length_cons, lexCalls, hl, Outcome.bind_ok]
        simp [h3]

/-- The stream behind calls. -/
theorem calls_streamOf {n : Nat} {it it' : InputIter} {ts : List (Tok T)}
    (h : lexCalls m gs ts.length it = .ok (ts.map some, it')) (hn : ts.length ≤ n) :
    ∃ more, (streamOf m gs n it).1 = ts ++ more := by
  induction ts generalizing it n with
  | nil => exact ⟨_, rfl⟩
  | cons t ts ih =>
    obtain ⟨n, rfl⟩ : ∃ j, n = j + 1 := ⟨n - 1, by simp only [List.length_cons] at hn; omega⟩
    rw [List.length_cons, lexCalls] at h
    obtain ⟨⟨a, it1⟩, h1, h2⟩ := Outcome.bind_eq_ok.1 h
    obtain ⟨⟨as, it2⟩, h3, h4⟩ := Outcome.bind_eq_ok.1 h2
    simp only [Outcome.pure_eq, Outcome.ok.injEq, Prod.mk.injEq, List.map_cons, List.cons.injEq] at h4
    obtain ⟨⟨rfl, rfl⟩, rfl⟩ := h4
    obtain ⟨more, h5⟩ := ih h3 (by simpa using hn)
    exact ⟨more, by simp only [streamOf, h1, h5, List.cons_append]⟩

/-- The stream behind calls that reach the end. -/
theorem calls_streamOf_end {n : Nat} {it it' : InputIter} {ts : List (Tok T)}
    (h : lexCalls m gs (ts.length + 1) it = .ok (ts.map some ++ [none], it')) (hn : ts.length < n) :
    streamOf m gs n it = (ts, .ok ()) := by
  induction ts generalizing it n with
  | nil =>
    obtain ⟨n, rfl⟩ : ∃ j, n = j + 1 := ⟨n - 1, by omega⟩
    rw [lexCalls] at h
    obtain ⟨⟨a, it1⟩, h1, h2⟩ := Outcome.bind_eq_ok.1 h
    obtain ⟨⟨as, it2⟩, h3, h4⟩ := Outcome.bind_eq_ok.1 h2
    simp only [Outcome.pure_eq, Outcome.ok.injEq, Prod.mk.injEq, List.map_nil, List.nil_append, List.cons.injEq] at h4
    obtain ⟨⟨rfl, _⟩, _⟩ := h4
    simp only [streamOf, h1]
  | cons t ts ih =>
    obtain ⟨n, rfl⟩ : ∃ j, n = j + 1 := ⟨n - 1, by omega⟩
    rw [List.length_cons, lexCalls] at h
    obtain ⟨⟨a, it1⟩, h1, h2⟩ := Outcome.bind_eq_ok.1 h
    obtain ⟨⟨as, it2⟩, h3, h4⟩ := Outcome.bind_eq_ok.1 h2
    simp only [Outcome.pure_eq, Outcome.ok.injEq, Prod.mk.injEq, List.map_cons, List.cons_append, List.cons.injEq] at h4
    obtain ⟨⟨rfl, rfl⟩, rfl⟩ := h4
    simp only [streamOf, h1, ih h3 (by simpa using hn)]

end Stream

section Steps

variable {V T : Type} [TerminalEq T] {g : Grammar V T} {entry : Prop}

/-- More tokens behind those that are there. -/
def _root_.Pango.Spec.Config.append (x : Config V T) (v : List T) : Config V T := ⟨x.syms, x.trees, x.input ++ v⟩

/-- They do not change the steps. -/
theorem _root_.Pango.Spec.ShiftReduce.append {x y : Config V T} (h : ShiftReduce g x y) (v : List T) :
    ShiftReduce g (x.append v) (y.append v) := by
  cases h with
  | shift h1 h2 h3 => exact .shift h1 h2 h3
  | reduce h1 h2 h3 h4 h5 h6 h7 => exact .reduce h1 h2 h3 h4 h5 h6 h7

theorem _root_.Pango.Spec.ShiftReduces.append {k : Nat} {x y : Config V T} (h : ShiftReduces g k x y) (v : List T) :
    ShiftReduces g k (x.append v) (y.append v) := by
  induction h with
  | refl => exact .refl
  | step h1 _ ih => exact .step (h1.append v) ih

/-- Nor how the machine stops before a token. -/
theorem _root_.Pango.Spec.Halts.append {x : Config V T} {s : Halt V T} (h : Halts g entry x s) (hx : x.input ≠ [])
    (v : List T) : Halts g entry (x.append v) s := by
  cases h with
  | @noAction γ ns w h1 =>
    refine .noAction fun p k hn => ?_
    cases w with
    | nil => exact absurd rfl hx
    | cons u w => exact h1 p k hn
  | noGoto h1 h2 h3 h4 h5 h6 => exact .noGoto h1 h2 h3 h4 h5 h6
  | accept _ _ _ _ => exact absurd rfl hx
  | reduceUnder h1 h2 h3 h4 h5 => exact .reduceUnder h1 h2 h3 h4 h5
  | acceptUnder _ _ _ _ => exact absurd rfl hx

/-- A step needs a token. -/
theorem _root_.Pango.Spec.ShiftReduce.input_ne {x y : Config V T} (h : ShiftReduce g x y) : x.input ≠ [] := by
  cases h <;> simp

theorem _root_.Pango.Spec.ShiftReduces.trans {k k' : Nat} {x y z : Config V T} (h : ShiftReduces g k x y)
    (h' : ShiftReduces g k' y z) : ShiftReduces g (k + k') x z := by
  induction h with
  | refl => rwa [Nat.zero_add]
  | @step k x y1 y h1 _ ih =>
    rw [show k + 1 + k' = (k + k') + 1 by omega]
    exact .step h1 (ih h')

/-- At the end of the input there are no more steps. -/
theorem _root_.Pango.Spec.ShiftReduces.last {k k' : Nat} {x y y' : Config V T}
    (hdet : ∀ {x y y' : Config V T}, ShiftReduce g x y → ShiftReduce g x y' → y = y')
    (h : ShiftReduces g k x y) (h' : ShiftReduces g k' x y') (hy : y.input = []) : k' ≤ k := by
  induction h generalizing k' with
  | refl =>
    cases h' with
    | refl => omega
    | step h1 _ => exact absurd hy h1.input_ne
  | step h1 _ ih =>
    cases h' with
    | refl => omega
    | step h3 h4 =>
      cases hdet h1 h3
      have := ih h4 hy
      omega

end Steps

variable {V T : Type} [DecidableEq V] [DecidableEq T] [TerminalEq T] [LawfulTerminalEq T] {g : Grammar V T}
  {entry : Prop} {c : Cfsm V T} {tbl : Table V T}

/-- What the parser returns on a stream that may not end. -/
theorem parse_run_stream (ok : SlrOk g c entry tbl) (fuel : Nat) (w : List T) (fin : InputEnd) (hfin : fin ≠ .panic) :
    parseTokens tbl fuel w fin = .diverge ∨
    ∃ k < fuel, ∃ x s, ShiftReduces g k (.start w) x ∧ Halts g entry x s ∧ (x.input = [] → fin = .ok ()) ∧
      Gives s (parseTokens tbl fuel w fin) := by
  obtain ⟨k, γ, ns, w', h1, ⟨rfl, h2⟩ | ⟨hk, h2⟩⟩ := parseTokens_runs ok (fin := fin) (n := fuel) (w := w)
  · exact .inl h2
  · obtain ⟨s, h3, h4, h5⟩ | ⟨_, h3, _⟩ | ⟨_, _, h3⟩ := h2.halts
    · exact .inr ⟨k, hk, ⟨γ, ns, w'⟩, s, shiftReduces_iff.2 h1, h3, h5, h4⟩
    · exact absurd h3 hfin
    · exact .inl h3

/-- Where the machine stops, so does the parser. -/
theorem gives_stream (ok : SlrOk g c entry tbl) {fuel k : Nat} {w : List T} {fin : InputEnd} {x : Config V T}
    {s : Halt V T} (h : ShiftReduces g k (.start w) x) (hs : Halts g entry x s)
    (hx : x.input = [] → fin = .ok ()) (hk : k < fuel) : Gives s (parseTokens tbl fuel w fin) := by
  obtain ⟨k', γ, ns, w', h1, ⟨rfl, h2⟩ | ⟨hk', h2⟩⟩ := parseTokens_runs ok (fin := fin) (n := fuel) (w := w)
  · have := (ShiftReduces.stops ok h hs (shiftReduces_iff (y := ⟨γ, ns, w'⟩).2 h1)).1
    omega
  · obtain ⟨h3, h4⟩ := ShiftReduces.stops ok h hs (shiftReduces_iff (y := ⟨γ, ns, w'⟩).2 h1)
    have hnil : w' = [] → k = k' := fun hw => by
      have := ShiftReduces.last (fun h h' => ShiftReduce.det ok h h') (shiftReduces_iff (y := ⟨γ, ns, w'⟩).2 h1) h hw
      omega
    obtain ⟨s', h5, h6, _⟩ | ⟨h5, h6, _⟩ | ⟨h5, h6, _⟩ := h2.halts
    · obtain ⟨h7, h8⟩ := ShiftReduces.stops ok (shiftReduces_iff (y := ⟨γ, ns, w'⟩).2 h1) h5 h
      cases h8 (by omega)
      rw [hs.unique ok.uniq h5]
      exact h6
    · cases h4 (hnil h5).symm
      rw [hx h5] at h6
      cases h6
    · cases h4 (hnil h5).symm
      rw [hx h5] at h6
      cases h6

/-- The machine goes on or stops. -/
theorem steps_or_halts (ok : SlrOk g c entry tbl) {k : Nat} {w : List T} {x : Config V T}
    (h : ShiftReduces g k (.start w) x) : (∃ y, ShiftReduces g (k + 1) (.start w) y) ∨ ∃ s, Halts g entry x s := by
  rcases parse_run ok (k + 1) w with ⟨_, h1⟩ | ⟨k', hk, s, ⟨y, h1, h2⟩, _⟩
  · exact .inl h1
  · obtain ⟨h3, h4⟩ := ShiftReduces.stops ok h1 h2 h
    cases h4 (by omega)
    exact .inr ⟨s, h2⟩

end Pango.Parse

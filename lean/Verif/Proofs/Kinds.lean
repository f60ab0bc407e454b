import Verif.Proofs.Table
import Verif.Spec.Slr

/-!
# Only the kinds of tokens matter
-/

namespace Pango.Parse

open Pango Pango.Spec

variable {V T : Type} [TerminalEq T]

theorem _root_.Pango.Spec.SameTrees.take {a b : List (Node V T)} (h : SameTrees a b) (n : Nat) :
    SameTrees (a.take n) (b.take n) := by
  induction h generalizing n with
  | nil => simpa using SameTrees.nil
  | leaf ht _ ih =>
    cases n with
    | zero => exact .nil
    | succ n => exact .leaf ht (ih n)
  | node hc _ _ ih =>
    cases n with
    | zero => exact .nil
    | succ n => exact .node hc (ih n)

theorem _root_.Pango.Spec.SameTrees.drop {a b : List (Node V T)} (h : SameTrees a b) (n : Nat) :
    SameTrees (a.drop n) (b.drop n) := by
  induction h generalizing n with
  | nil => simpa using SameTrees.nil
  | leaf ht h ih =>
    cases n with
    | zero => exact .leaf ht h
    | succ n => exact ih n
  | node hc h _ ih =>
    cases n with
    | zero => exact .node hc h
    | succ n => exact ih n

/-- Stacks with the same states. -/
def SameStack (a b : List (ParseNode V T)) : Prop :=
  a.map ParseNode.state = b.map ParseNode.state ∧ SameTrees (a.map ParseNode.node) (b.map ParseNode.node)

theorem SameStack.length {a b : List (ParseNode V T)} (h : SameStack a b) : a.length = b.length := by
  simpa using congrArg List.length h.1

theorem SameStack.drop {a b : List (ParseNode V T)} (h : SameStack a b) (n : Nat) : SameStack (a.drop n) (b.drop n) := by
  refine ⟨?_, ?_⟩
  · rw [List.map_drop, List.map_drop, h.1]
  · rw [List.map_drop, List.map_drop]; exact h.2.drop n

/-- Two results of `handle_token`. -/
inductive SameHandled : Outcome (Option (Handled V T)) → Outcome (Option (Handled V T)) → Prop
  | step {n m : Node V T} {s : Nat} {acc taken : Bool} {a b : List (ParseNode V T)} :
      (∀ {ns ms}, SameTrees ns ms → SameTrees (n :: ns) (m :: ms)) → SameStack a b →
      SameHandled (.ok (some ⟨⟨n, s⟩, acc, a, taken⟩)) (.ok (some ⟨⟨m, s⟩, acc, b, taken⟩))
  | error : SameHandled (.ok none) (.ok none)
  | panic : SameHandled .panic .panic

variable [DecidableEq V] [LawfulTerminalEq T] {tbl : Table V T}

theorem handleToken_same {k k' : Option T} (hk : keyEq k k' = true) {a b : List (ParseNode V T)} (h : SameStack a b)
    (s : Nat) : SameHandled (handleToken tbl k a s) (handleToken tbl k' b s) := by
  unfold handleToken
  cases tbl.action[s]? with
  | none => exact .panic
  | some row =>
    simp only [Outcome.expect_some, Outcome.bind_ok, rowGet_congr hk]
    cases rowGet row k' with
    | none => exact .error
    | some act =>
      cases act with
      | shift d =>
        cases k with
        | none =>
          cases k' with
          | none => exact .panic
          | some u => cases hk
        | some t =>
          cases k' with
          | none => cases hk
          | some u => exact .step (fun hs => .leaf hk hs) h
      | reduce v m =>
        simp only [drainStack]
        rw [h.length]
        split
        · have hd := h.drop m
          simp only [Outcome.bind_ok]
          have htop : (a.drop m).head?.map ParseNode.state = (b.drop m).head?.map ParseNode.state := by
            rw [← List.head?_map, ← List.head?_map, hd.1]
          cases ha : (a.drop m).head? with
          | none =>
            rw [ha] at htop
            cases hb : (b.drop m).head? with
            | none => exact .panic
            | some _ => rw [hb] at htop; cases htop
          | some x =>
            rw [ha] at htop
            cases hb : (b.drop m).head? with
            | none => rw [hb] at htop; cases htop
            | some y =>
              rw [hb] at htop
              simp only [Option.map_some, Option.some.injEq] at htop
              simp only [Outcome.expect_some, Outcome.bind_ok, htop]
              cases tbl.goto[y.state]? with
              | none => exact .panic
              | some row =>
                simp only [Outcome.expect_some, Outcome.bind_ok]
                cases mapGet row v with
                | none => exact .error
                | some d =>
                  refine .step (fun hs => .node ?_ hs) hd
                  rw [List.map_take, List.map_take]
                  exact h.2.take m
        · exact .panic
      | accept v m =>
        simp only [drainStack]
        rw [h.length]
        split
        · refine .step (fun hs => .node ?_ hs) (h.drop m)
          rw [List.map_take, List.map_take]
          exact h.2.take m
        · exact .panic

theorem parseEof_same {n : Nat} {a b : List (ParseNode V T)} (h : SameStack a b) {s : Nat} :
    SameResult (parseEof tbl n a s) (parseEof tbl n b s) := by
  induction n generalizing a b s with
  | zero => exact .diverge
  | succ n ih =>
    rw [parseEof, parseEof]
    have := handleToken_same (tbl := tbl) (k := none) (k' := none) rfl h s
    revert this
    generalize handleToken tbl none a s = r, handleToken tbl none b s = r'
    intro hr
    cases hr with
    | error => exact .error
    | panic => exact .panic
    | @step n1 m1 s' acc taken a' b' h1 h2 =>
      simp only [Outcome.bind_ok]
      cases acc with
      | true => exact .tree (h1 .nil)
      | false =>
        have h3 : SameStack (⟨n1, s'⟩ :: a') (⟨m1, s'⟩ :: b') := ⟨by simp [h2.1], h1 h2.2⟩
        exact ih h3

theorem parseLoop_same {fin : InputEnd} {n : Nat} {v w : List T} (hw : SameTokens v w) {a b : List (ParseNode V T)}
    (h : SameStack a b) {s : Nat} : SameResult (parseLoop tbl fin n v a s) (parseLoop tbl fin n w b s) := by
  induction n generalizing v w a b s with
  | zero => rw [parseLoop, parseLoop]; exact .diverge
  | succ n ih =>
    cases hw with
    | nil =>
      simp only [parseLoop]
      cases fin with
      | ok _ => exact parseEof_same h
      | panic => exact .panic
      | diverge => exact .diverge
    | @cons t u v w ht hw =>
      simp only [parseLoop]
      have := handleToken_same (tbl := tbl) (k := some t) (k' := some u) ht h s
      revert this
      generalize handleToken tbl (some t) a s = r, handleToken tbl (some u) b s = r'
      intro hr
      cases hr with
      | error => exact .error
      | panic => exact .panic
      | @step n1 m1 s' acc taken a' b' h1 h2 =>
        simp only [Outcome.bind_ok]
        have h3 : SameStack (⟨n1, s'⟩ :: a') (⟨m1, s'⟩ :: b') := ⟨by simp [h2.1], h1 h2.2⟩
        cases acc with
        | true => exact .tree (h1 .nil)
        | false =>
          cases taken with
          | true => exact ih hw h3
          | false => exact ih (.cons ht hw) h3

end Pango.Parse

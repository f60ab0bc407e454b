import Verif.Model.Slr

/-!
# The bounds on the number of iterations do not matter

A computation that ends with some bound on the number of iterations has the same result with every larger bound.
-/

namespace Pango

/-- The first computation has not ended, or has the result of the second. -/
def Outcome.Le {α : Type} (x y : Outcome α) : Prop := x = .diverge ∨ x = y

theorem Outcome.Le.refl {α : Type} {x : Outcome α} : x.Le x := .inr rfl

theorem Outcome.Le.diverge {α : Type} {x : Outcome α} : Outcome.diverge.Le x := .inl rfl

theorem Outcome.Le.trans {α : Type} {x y z : Outcome α} (h : x.Le y) (h' : y.Le z) : x.Le z := by
  rcases h with rfl | rfl
  · exact .diverge
  · exact h'

theorem Outcome.Le.bind {α β : Type} {x x' : Outcome α} {f f' : α → Outcome β} (h : x.Le x')
    (hf : ∀ a, (f a).Le (f' a)) : (x >>= f).Le (x' >>= f') := by
  rcases h with rfl | rfl
  · exact .diverge
  · cases x with
    | ok a => exact hf a
    | panic => exact .refl
    | diverge => exact .refl

theorem Outcome.Le.ok {α : Type} {x y : Outcome α} (h : x.Le y) {a : α} (hx : x = .ok a) : y = .ok a := by
  rcases h with h | h
  · rw [h] at hx; cases hx
  · rw [← h]; exact hx

theorem Outcome.Le.panic {α : Type} {x y : Outcome α} (h : x.Le y) (hx : x = .panic) : y = .panic := by
  rcases h with h | h
  · rw [h] at hx; cases hx
  · rw [← h]; exact hx

namespace Parse

variable {V T : Type} [DecidableEq V] [DecidableEq T] {g : Grammar V T}

theorem firstLoop_mono {n n' : Nat} (h : n ≤ n') {ord : HashOrder} {s : FirstState V T} :
    (firstLoop g ord n s).Le (firstLoop g ord n' s) := by
  induction n generalizing n' ord s with
  | zero =>
    rw [firstLoop, firstLoop]
    split
    · exact .refl
    · exact .diverge
  | succ n ih =>
    obtain ⟨m, rfl⟩ : ∃ m, n' = m + 1 := ⟨n' - 1, by omega⟩
    rw [firstLoop, firstLoop]
    split
    · exact .refl
    · exact Outcome.Le.bind .refl fun s => ih (by omega)

theorem firstBodies_mono {n n' : Nat} (h : n ≤ n') {ord : HashOrder} {o : Option V} {bs : List (Body V T)} :
    (firstBodies g ord n o bs).Le (firstBodies g ord n' o bs) :=
  (firstLoop_mono h).bind fun _ => .refl

theorem followBody_mono {n n' : Nat} (h : n ≤ n') {ord : HashOrder} {v : V} {β : Body V T} {s : FollowState V T} :
    (followBody g ord n v β s).Le (followBody g ord n' v β s) := by
  induction β generalizing s with
  | nil => exact .refl
  | cons x β ih =>
    cases x with
    | var w =>
      rw [followBody, followBody]
      split
      · exact ih
      · exact (firstBodies_mono h).bind fun _ => ih
    | term t => exact ih
    | eps => exact ih

theorem followRules_mono {n n' : Nat} (h : n ≤ n') {ord : HashOrder} {rules : List (V × Body V T)}
    {s : FollowState V T} : (followRules g ord n rules s).Le (followRules g ord n' rules s) := by
  induction rules generalizing s with
  | nil => exact .refl
  | cons r rules ih =>
    obtain ⟨v, β⟩ := r
    exact (followBody_mono h).bind fun _ => ih

theorem followLoop_mono {n n' : Nat} (h : n ≤ n') {ord : HashOrder} {deps : List (V × List V)} {q : List (V × V)}
    {r : List (V × List (Sym V T))} : (followLoop deps ord n q r).Le (followLoop deps ord n' q r) := by
  induction n generalizing n' ord q r with
  | zero =>
    cases q with
    | nil => cases n' <;> exact .refl
    | cons e q => exact .diverge
  | succ n ih =>
    obtain ⟨m, rfl⟩ : ∃ m, n' = m + 1 := ⟨n' - 1, by omega⟩
    cases q with
    | nil => exact .refl
    | cons e q =>
      obtain ⟨a, b⟩ := e
      rw [followLoop, followLoop]
      split
      · exact ih (by omega)
      · simp only
        split <;> exact ih (by omega)

theorem followSet_mono {n n' : Nat} (h : n ≤ n') {ord : HashOrder} :
    (g.followSet ord n).Le (g.followSet ord n') :=
  (followRules_mono h).bind fun _ => followLoop_mono h

theorem closureLoop_mono {n n' : Nat} (h : n ≤ n') {ord : HashOrder} {p : List (Item V T)} {I : ItemSet V T} :
    (closureLoop g ord n p I).Le (closureLoop g ord n' p I) := by
  induction n generalizing n' ord p I with
  | zero =>
    cases p with
    | nil => cases n' <;> exact .refl
    | cons e q => exact .diverge
  | succ n ih =>
    obtain ⟨m, rfl⟩ : ∃ m, n' = m + 1 := ⟨n' - 1, by omega⟩
    cases p with
    | nil => exact .refl
    | cons i p =>
      rw [closureLoop, closureLoop]
      refine Outcome.Le.bind .refl fun o => ?_
      cases o with
      | none => exact ih (by omega)
      | some v => exact Outcome.Le.bind .refl fun bs => ih (by omega)

theorem gotoItems_mono {n n' : Nat} (h : n ≤ n') {ord : HashOrder} {I : ItemSet V T} :
    (gotoItems g ord n I).Le (gotoItems g ord n' I) := closureLoop_mono h

theorem startItems_mono {n n' : Nat} (h : n ≤ n') {ord : HashOrder} :
    (startItems g ord n).Le (startItems g ord n') := .bind .refl fun _ => closureLoop_mono h

theorem cfsmTransitions_mono {n n' : Nat} (h : n ≤ n') {ord : HashOrder} {done : List (CState V T)}
    {gs : List (Sym V T × ItemSet V T)} {w : CfsmWork V T} :
    (cfsmTransitions g ord n done gs w).Le (cfsmTransitions g ord n' done gs w) := by
  induction gs generalizing w with
  | nil => exact .refl
  | cons e gs ih =>
    obtain ⟨x, I⟩ := e
    rw [cfsmTransitions, cfsmTransitions]
    refine (gotoItems_mono h).bind fun J => ?_
    exact ih.bind fun _ => .refl

theorem cfsmLoop_mono {n n' m m' : Nat} (h : n ≤ n') (hm : m ≤ m') {ord : HashOrder} {done : List (CState V T)}
    {w : CfsmWork V T} : (cfsmLoop g ord n m done w).Le (cfsmLoop g ord n' m' done w) := by
  induction m generalizing m' done w with
  | zero =>
    rw [cfsmLoop, cfsmLoop]
    split
    · exact .refl
    · exact .diverge
  | succ m ih =>
    obtain ⟨k, rfl⟩ : ∃ k, m' = k + 1 := ⟨m' - 1, by omega⟩
    rw [cfsmLoop, cfsmLoop]
    split
    · exact .refl
    · exact (cfsmTransitions_mono h).bind fun _ => ih (by omega)

theorem fromGrammar_mono {n n' : Nat} (h : n ≤ n') {ord : HashOrder} :
    (Cfsm.fromGrammar g ord n).Le (Cfsm.fromGrammar g ord n') :=
  (startItems_mono h).bind fun _ => (cfsmLoop_mono h h).bind fun _ => .refl

variable [TerminalEq T]

theorem slrTable_mono {n n' : Nat} (h : n ≤ n') {ord : HashOrder} :
    (slrTable g ord n).Le (slrTable g ord n') :=
  (fromGrammar_mono h).bind fun _ => (followSet_mono h).bind fun _ => .refl

theorem slrNew_mono {n n' : Nat} (h : n ≤ n') {ord : HashOrder} :
    (slrNew g ord n).Le (slrNew g ord n') := (slrTable_mono h).bind fun _ => .refl

variable {tbl : Table V T}

omit [DecidableEq T] in
theorem parseEof_mono {n n' : Nat} (h : n ≤ n') {st : List (ParseNode V T)} {s : Nat} :
    (parseEof tbl n st s).Le (parseEof tbl n' st s) := by
  induction n generalizing n' st s with
  | zero => exact .diverge
  | succ n ih =>
    obtain ⟨m, rfl⟩ : ∃ m, n' = m + 1 := ⟨n' - 1, by omega⟩
    rw [parseEof, parseEof]
    refine Outcome.Le.bind .refl fun o => ?_
    cases o with
    | none => exact .refl
    | some h =>
      simp only
      split
      · exact .refl
      · exact ih (by omega)

omit [DecidableEq T] in
theorem parseLoop_mono {fin : InputEnd} {n n' : Nat} (h : n ≤ n') {w : List T} {st : List (ParseNode V T)}
    {s : Nat} : (parseLoop tbl fin n w st s).Le (parseLoop tbl fin n' w st s) := by
  induction n generalizing n' w st s with
  | zero => exact .diverge
  | succ n ih =>
    obtain ⟨m, rfl⟩ : ∃ m, n' = m + 1 := ⟨n' - 1, by omega⟩
    cases w with
    | nil =>
      simp only [parseLoop]
      cases fin with
      | ok _ => exact parseEof_mono h
      | panic => exact .refl
      | diverge => exact .refl
    | cons t w =>
      rw [parseLoop, parseLoop]
      refine Outcome.Le.bind .refl fun o => ?_
      cases o with
      | none => exact .refl
      | some h =>
        simp only
        split
        · exact .refl
        · exact ih (by omega)

omit [DecidableEq T] in
theorem parseTokens_mono {fin : InputEnd} {n n' : Nat} (h : n ≤ n') {w : List T} :
    (parseTokens tbl n w fin).Le (parseTokens tbl n' w fin) := parseLoop_mono h

end Parse

end Pango

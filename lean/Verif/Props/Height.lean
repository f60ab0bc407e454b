import Verif.Proofs.Height
import Verif.Props.EndMarker

/-!
# C137: how high the stack of the parser gets
-/

namespace Pango.Props

open Pango Pango.Parse Pango.Spec

section

variable {V T : Type} [DecidableEq V] [DecidableEq T] [TerminalEq T] [LawfulTerminalEq T] {g : Grammar V T}
  {tbl : Table V T}

omit [LawfulTerminalEq T] in
private theorem start_ok {c : Cfsm V T} {entry : Prop} (ok : SlrOk g c entry tbl) :
    ∃ s, s.id = 0 ∧ StackOk c (bottomNode g) [] [] [⟨bottomNode g, s.id⟩] s := by
  obtain ⟨s, h1, h2⟩ := ok.cfsm.reached_start
  exact ⟨s, h1, .bottom (reached_mem h2) h1⟩

/-- C137.  If the grammar is recursive at the front of the bodies only, then the stack of its parser is never higher than
a number that does not depend on the input. -/
theorem c137_low (hg : Built g) (hp : IsParser g tbl) (hl : LeftOnly g) {input : List T} {fin : InputEnd} {fuel : Nat}
    {p : List T × List (ParseNode V T)} (h : p ∈ parseStacks tbl fuel input fin) :
    p.2.length ≤ (g.rules.map fun r => r.2.length).sum * (g.rules.length + 1) + 1 := by
  obtain ⟨c, follow, _, ok⟩ := hp.ok hg
  obtain ⟨s, h1, h2⟩ := start_ok ok
  obtain ⟨rest, st⟩ := p
  rw [parseStacks, ok.start] at h
  obtain ⟨γ, ns, s', h3⟩ := loopStacks_ok ok h2 (rest := rest) (st' := st) (by rw [h1]; exact h)
  simp only [h3.length_stack]
  rcases h3.viable ok.cfsm with rfl | ⟨q, hq⟩
  · simp
  · exact Nat.succ_le_succ (viable_bound hg.wellFormed hl hq)

/-- C137.  If a variable is inside of itself behind something else, then there are sentences on which the stack gets as
high as one likes. -/
theorem c137_high (hg : Built g) (he : EpsFree g) (hprod : Productive g) (hp : IsParser g tbl) {v : V}
    (hv : Reachable g v) (hw : Encloses g true v v) (n : Nat) :
    ∃ tree input, ParseTree g tree input ∧ ∃ fuel, ∃ p ∈ parseStacks tbl fuel input, n < p.2.length := by
  have wf := hg.wellFormed
  obtain ⟨c, follow, _, ok⟩ := hp.ok hg
  obtain ⟨s, h1, h2⟩ := start_ok ok
  obtain ⟨γ, hn, hs⟩ := source_high he hv hw n
  obtain ⟨β, hβ, ms, x, hx⟩ : ∃ β, (v, β) ∈ g.rules ∧ ∃ ms x, Forest g β ms x := by
    have : ∃ β, (v, β) ∈ g.rules := by
      cases hw with
      | front hr _ => exact ⟨_, hr⟩
      | behind hr _ => exact ⟨_, hr⟩
    obtain ⟨β, hβ⟩ := this
    obtain ⟨m, x, h⟩ := hprod v β hβ
    exact forest_inner h (by simp)
  have hvi := source_viable he hs hβ
  obtain ⟨δ, h3, h4⟩ := viable_sentence wf hvi
  have hclosed : ∀ u, .var u ∈ γ → ∃ β, (u, β) ∈ g.rules := by
    intro u hu
    obtain ⟨⟨w, β⟩, hr, hm⟩ := List.mem_flatMap.1 (viable_syms hvi _ hu)
    exact wf.closed _ _ _ hr hm
  obtain ⟨ns, w, h5⟩ := productive_all hprod LawfulTerminalEq.refl hclosed
  obtain ⟨ks, y, h6⟩ := productive_all hprod LawfulTerminalEq.refl (α := δ) fun u hu => h3 u (by simp [hu])
  obtain ⟨tree, h7⟩ := h4 _ _ (forest_append h5 (forest_append (by simpa using hx) h6))
  obtain ⟨t, u, r, hu, ht, hst⟩ := forest_starts wf ((forest_dropEps he).2 hx) (he _ _ hβ) (wf.nonempty _ _ hβ)
  obtain ⟨k, hk⟩ := viable_moves wf he hvi (rest := x ++ y) h5 (by
    intro γ' v' hγ
    exact ⟨t, u, r ++ y, by rw [hu]; rfl, ht, viable_fol he hvi hγ (by simpa using hst)⟩)
  obtain ⟨st, h8, h9⟩ := moves_stacks ok (fin := .ok ()) hk (by rw [hu]; simp) h2
  refine ⟨tree, _, h7, k + 1, (x ++ y, st), ?_, ?_⟩
  · rw [parseStacks, ok.start]
    rw [h1] at h8
    exact h8
  · simp only at h9 ⊢
    omega

/-- C137, exactly: the stack stays below a number that does not depend on the input if and only if the grammar is
recursive at the front of the bodies only. -/
theorem c137_exact (hg : Built g) (he : EpsFree g) (hprod : Productive g) (hp : IsParser g tbl) :
    (∃ bound, ∀ input fuel, ∀ p ∈ parseStacks tbl fuel input, p.2.length ≤ bound) ↔ LeftOnly g := by
  constructor
  · rintro ⟨bound, h⟩ v hv hw
    obtain ⟨_, input, _, fuel, p, h1, h2⟩ := c137_high hg he hprod hp hv hw bound
    have := h input fuel p h1
    omega
  · exact fun hl => ⟨_, fun input fuel p h => c137_low hg hp hl h⟩

end

/-! ## Two grammars of lists -/

/-- `Z → L $ | Z #`, `L → L x | x`. -/
def leftList : Grammar String String :=
  withEnd ⟨"L", [("L", [.var "L", .term "x"]), ("L", [.term "x"])]⟩ "Z" "$" "#"

/-- `Z → R $ | Z #`, `R → X R | X`, `X → x`. -/
def rightList : Grammar String String :=
  withEnd ⟨"R", [("R", [.var "X", .var "R"]), ("R", [.var "X"]), ("X", [.term "x"])]⟩ "Z" "$" "#"

theorem leftList_built : Built leftList :=
  ⟨[.addRules "L" [[.var "L", .term "x"], [.term "x"]], .setStart "Z",
    .addRules "Z" [[.var "L", .term "$"], [.var "Z", .term "#"]]], by decide⟩

private theorem rightList_built : Built rightList :=
  ⟨[.addRules "R" [[.var "X", .var "R"], [.var "X"]], .addRules "X" [[.term "x"]], .setStart "Z",
    .addRules "Z" [[.var "R", .term "$"], [.var "Z", .term "#"]]], by decide⟩

theorem leftList_parser : IsParser leftList (tableOf leftList) := ⟨100, .insertion, by decide +kernel⟩

private theorem rightList_parser : IsParser rightList (tableOf rightList) := ⟨100, .insertion, by decide +kernel⟩

theorem leftList_left : LeftOnly leftList := by
  refine leftOnly_of_terms fun v β hr y hy => ?_
  simp [leftList, withEnd] at hr
  rcases hr with ⟨_, rfl⟩ | ⟨_, rfl⟩ | ⟨_, rfl⟩ | ⟨_, rfl⟩ <;> simp at hy <;> exact ⟨_, hy⟩

/-- On a list of any length the stack of the first parser is at most 36 high (it is 3 high, in fact). -/
example (input : List String) (fuel : Nat) : ∀ p ∈ parseStacks (tableOf leftList) fuel input, p.2.length ≤ 36 :=
  fun _ h => c137_low leftList_built leftList_parser leftList_left h

private theorem rightList_productive : Productive rightList := by
  have hX : Forest rightList [.var "X"] [.mk (.var "X") [.mk (.term "x") []]] ["x"] :=
    .var (x := ["x"]) (w := []) (β := [.term "x"]) (by decide) (.term rfl .nil) .nil
  have hR : Forest rightList [.var "R"] [.mk (.var "R") [.mk (.var "X") [.mk (.term "x") []]]] ["x"] :=
    .var (x := ["x"]) (w := []) (β := [.var "X"]) (by decide) hX .nil
  have h1 : Forest rightList ([.var "R"] ++ [.term "$"]) _ (["x"] ++ ["$"]) := forest_append hR (.term (u := "$") rfl .nil)
  have hZ : Forest rightList [.var "Z"] _ (["x", "$"] ++ []) := .var (β := [.var "R", .term "$"]) (by decide) h1 .nil
  intro v β h
  simp [rightList, withEnd] at h
  rcases h with ⟨rfl, _⟩ | ⟨rfl, _⟩ | ⟨rfl, _⟩ | ⟨rfl, _⟩ | ⟨rfl, _⟩
  · exact ⟨_, _, hR⟩
  · exact ⟨_, _, hR⟩
  · exact ⟨_, _, hX⟩
  · exact ⟨_, _, hZ⟩
  · exact ⟨_, _, hZ⟩

/-- The stack of the second parser gets as high as one likes. -/
example (n : Nat) : ∃ tree input, ParseTree rightList tree input ∧
    ∃ fuel, ∃ p ∈ parseStacks (tableOf rightList) fuel input, n < p.2.length := by
  refine c137_high rightList_built ?_ rightList_productive rightList_parser (v := "R")
    (.step .start (β := [.var "R", .term "$"]) (by decide) (by simp))
    (.behind (x := .var "X") (pre := []) (post := []) (by decide) .self) n
  intro v β h
  simp [rightList, withEnd] at h
  rcases h with ⟨_, rfl⟩ | ⟨_, rfl⟩ | ⟨_, rfl⟩ | ⟨_, rfl⟩ | ⟨_, rfl⟩ <;> simp

/-- The heights for three elements. -/
example : (parseStacks (tableOf leftList) 20 ["x", "x", "x", "$"]).map (fun p => p.2.length) =
      [1, 2, 2, 3, 2, 3, 2, 3] ∧
    (parseStacks (tableOf rightList) 20 ["x", "x", "x", "$"]).map (fun p => p.2.length) =
      [1, 2, 2, 3, 3, 4, 4, 4, 3, 2, 3] := by decide +kernel

end Pango.Props

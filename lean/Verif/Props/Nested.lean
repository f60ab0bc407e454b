import Verif.Proofs.Nested
import Verif.Props.Plugged
import Verif.Props.Rename
import Verif.Proofs.ContextFree

/-!
# C118: lists in brackets, of anything
-/

namespace Pango.Props

open Pango Pango.Parse Pango.Spec

/-! ## The grammar of lists without elements of their own -/

/-- The terminals of lists. -/
inductive ListTok where
  | elem
  | opening
  | sep
  | closing
  deriving DecidableEq

instance : Inhabited ListTok := ⟨.elem⟩
instance : Inhabited ListVar := ⟨.data⟩

instance : TerminalEq ListTok := ⟨fun t u => decide (t = u)⟩

/-- `data → x | [ rest`, `rest → ] | items ]`, `items → data | items , data`. -/
def bareLists : Grammar ListVar ListTok :=
  ⟨.data, [(.data, [.term .elem]), (.data, [.term .opening, .var .rest]), (.rest, [.term .closing]),
    (.rest, [.var .items, .term .closing]), (.items, [.var .data]), (.items, [.var .items, .term .sep, .var .data])]⟩

theorem bareLists_built : Built bareLists :=
  ⟨[.setStart .data, .addRules .data [[.term .elem], [.term .opening, .var .rest]],
    .addRules .rest [[.term .closing], [.var .items, .term .closing]],
    .addRules .items [[.var .data], [.var .items, .term .sep, .var .data]]], by decide⟩

/-- The names as strings. -/
def varName : ListVar → String
  | .data => "D"
  | .rest => "R"
  | .items => "I"

def tokName : ListTok → String
  | .elem => "x"
  | .opening => "["
  | .sep => ","
  | .closing => "]"

theorem names_renaming : Renaming varName tokName where
  vars v w h := by cases v <;> cases w <;> first | rfl | (exact absurd h (by decide))
  terms v w h := by cases v <;> cases w <;> first | rfl | (exact absurd h (by decide))
  kinds t u := by cases t <;> cases u <;> decide

private theorem bare_rule {v : ListVar} {β : Body ListVar ListTok} (h : (v, β) ∈ bareLists.rules) :
    v = .data ∧ β = [.term .elem] ∨ v = .data ∧ β = [.term .opening, .var .rest] ∨ v = .rest ∧ β = [.term .closing] ∨
    v = .rest ∧ β = [.var .items, .term .closing] ∨ v = .items ∧ β = [.var .data] ∨
    v = .items ∧ β = [.var .items, .term .sep, .var .data] := by
  simpa [bareLists] using h

theorem bareLists_epsFree : EpsFree bareLists := by
  intro v β h
  rcases bare_rule h with ⟨_, rfl⟩ | ⟨_, rfl⟩ | ⟨_, rfl⟩ | ⟨_, rfl⟩ | ⟨_, rfl⟩ | ⟨_, rfl⟩ <;> simp

theorem bareLists_oneEntry : OneEntryEach bareLists := by
  rw [← oneEntry_rename names_renaming]
  refine (c86_table (z := "Z") (e := "$") (f := "#")
    (bareLists_built.rename names_renaming.vars names_renaming.terms) ?_ ?_).1.1
    ⟨tableOf (withEnd (bareLists.rename varName tokName) "Z" "$" "#"), 200, .insertion, by decide +kernel⟩
  · intro v β h
    obtain ⟨v, β, rfl, rfl, h1⟩ := renamed_rule h
    rcases bare_rule h1 with ⟨_, rfl⟩ | ⟨_, rfl⟩ | ⟨_, rfl⟩ | ⟨_, rfl⟩ | ⟨_, rfl⟩ | ⟨_, rfl⟩ <;> simp [Sym.rename]
  · have names : ∀ {v β t}, (v, β) ∈ (bareLists.rename varName tokName).rules → Sym.term t ∈ β →
        ∃ u, t = tokName u := by
      intro v β t h ht
      obtain ⟨v, β, rfl, rfl, h⟩ := renamed_rule h
      obtain ⟨x, _, h2⟩ := List.mem_map.1 ht
      cases x with
      | term u => cases h2; exact ⟨u, rfl⟩
      | var _ => cases h2
      | eps => cases h2
    refine ⟨?_, ?_, ?_, by decide⟩
    · intro β h
      obtain ⟨v, β, h1, _, _⟩ := renamed_rule h
      cases v <;> exact absurd h1 (by decide)
    · intro v β t h ht
      obtain ⟨u, rfl⟩ := names h ht
      cases u <;> decide
    · intro v β t h ht
      obtain ⟨u, rfl⟩ := names h ht
      cases u <;> decide

variable {W T : Type}

/-- The terminals of lists in another grammar. -/
def toTok (hole opening sep closing : T) : ListTok → T
  | .elem => hole
  | .opening => opening
  | .sep => sep
  | .closing => closing

/-- The grammar of lists with other terminals. -/
def listsOf (hole opening sep closing : T) : Grammar ListVar T := bareLists.rename id (toTok hole opening sep closing)

private theorem listsOf_rules (hole opening sep closing : T) : (listsOf hole opening sep closing).rules =
    [(.data, [.term hole]), (.data, [.term opening, .var .rest]), (.rest, [.term closing]),
      (.rest, [.var .items, .term closing]), (.items, [.var .data]), (.items, [.var .items, .term sep, .var .data])] := rfl

private theorem listsOf_rule {hole opening sep closing : T} {v : ListVar} {β : Body ListVar T}
    (h : (v, β) ∈ (listsOf hole opening sep closing).rules) :
    v = .data ∧ β = [.term hole] ∨ v = .data ∧ β = [.term opening, .var .rest] ∨ v = .rest ∧ β = [.term closing] ∨
    v = .rest ∧ β = [.var .items, .term closing] ∨ v = .items ∧ β = [.var .data] ∨
    v = .items ∧ β = [.var .items, .term sep, .var .data] := by
  simpa [listsOf_rules] using h

/-- Of two symbols that stand next to each other the first one lets something begin or the second one stands behind
something. -/
private theorem lists_chain {hole opening sep closing : T} {v : ListVar} {α : List (Sym ListVar T)}
    (h : Derives (listsOf hole opening sep closing) [.var v] α) :
    α.IsChain fun x y => (x = .term sep ∨ x = .term opening) ∨ (y = .term sep ∨ y = .term closing) := by
  generalize ha : [Sym.var v] = a at h
  induction h with
  | refl => subst ha; simp
  | step _ h2 ih =>
    cases h2 with
    | @rule x y β v h2 =>
      rw [List.isChain_append] at ih ⊢
      obtain ⟨i1, i2, i3⟩ := ih
      have j : ∀ a ∈ x.getLast?, a = .term sep ∨ a = .term opening := by
        intro a ha
        simpa using i3 a ha
      have j2 : ∀ b ∈ y.head?, b = .term sep ∨ b = .term closing := by
        intro b hb
        cases y with
        | nil => simp at hb
        | cons c y =>
          simp at hb
          subst hb
          simpa using (List.isChain_cons_cons.1 i2).1
      refine ⟨i1, ?_, fun a ha b _ => .inl (j a ha)⟩
      rw [List.isChain_append]
      refine ⟨?_, i2.tail, fun a _ b hb => .inr (j2 b hb)⟩
      rcases listsOf_rule h2 with ⟨_, rfl⟩ | ⟨_, rfl⟩ | ⟨_, rfl⟩ | ⟨_, rfl⟩ | ⟨_, rfl⟩ | ⟨_, rfl⟩ <;> simp
    | @eps x y =>
      rw [List.isChain_append] at ih ⊢
      obtain ⟨i1, i2, i3⟩ := ih
      refine ⟨i1, i2.tail, fun a ha b hb => .inl ?_⟩
      simpa using i3 a ha

variable [DecidableEq W] [DecidableEq T] {i : Grammar W T} {opening sep closing : T} {H : Grammar (ListVar ⊕ W) T}

/-- C118, the grammar can be built. -/
theorem c118_grammar (hi : Built i) (opening sep closing : T) : ∃ H : Grammar (ListVar ⊕ W) T, Built H ∧
    H.start = .inl .data ∧ ∀ v β, (v, β) ∈ H.rules ↔ ListRule i opening sep closing v β := by
  have wf := hi.wellFormed
  let rules : List ((ListVar ⊕ W) × Body (ListVar ⊕ W) T) :=
    [(.inl .data, [.var (.inr i.start)]), (.inl .data, [.term opening, .var (.inl .rest)]),
      (.inl .rest, [.term closing]), (.inl .rest, [.var (.inl .items), .term closing]),
      (.inl .items, [.var (.inl .data)]), (.inl .items, [.var (.inl .items), .term sep, .var (.inl .data)])] ++
    i.rules.map fun r => (.inr r.1, r.2.map innerSym)
  have hr : ∀ v β, (v, β) ∈ rules ↔ ListRule i opening sep closing v β := by
    intro v β
    constructor
    · intro h
      rcases List.mem_append.1 h with h | h
      · simp only [List.mem_cons, Prod.mk.injEq, List.not_mem_nil, or_false] at h
        rcases h with ⟨rfl, rfl⟩ | ⟨rfl, rfl⟩ | ⟨rfl, rfl⟩ | ⟨rfl, rfl⟩ | ⟨rfl, rfl⟩ | ⟨rfl, rfl⟩
        · exact .leaf
        · exact .list
        · exact .done
        · exact .some
        · exact .one
        · exact .more
      · obtain ⟨⟨v, b⟩, h1, h2⟩ := List.mem_map.1 h
        cases h2
        exact .inner h1
    · intro h
      cases h with
      | inner h => exact List.mem_append_right _ (List.mem_map.2 ⟨_, h, rfl⟩)
      | _ => exact List.mem_append_left _ (by simp)
  obtain ⟨H, h1, h2, h3⟩ := built_rules (Sum.inl .data) rules ⟨_, (hr _ _).2 .leaf⟩
    (by
      intro v β w h h'
      cases (hr _ _).1 h with
      | leaf =>
        obtain ⟨b, hb⟩ := wf.start
        simp at h'
        subst h'
        exact ⟨_, (hr _ _).2 (.inner hb)⟩
      | list => simp at h'; subst h'; exact ⟨_, (hr _ _).2 .done⟩
      | done => simp at h'
      | some => simp at h'; subst h'; exact ⟨_, (hr _ _).2 .one⟩
      | one => simp at h'; subst h'; exact ⟨_, (hr _ _).2 .leaf⟩
      | more =>
        simp at h'
        rcases h' with rfl | rfl
        · exact ⟨_, (hr _ _).2 .one⟩
        · exact ⟨_, (hr _ _).2 .leaf⟩
      | inner h1 =>
        obtain ⟨x, h2, h3⟩ := List.mem_map.1 h'
        obtain ⟨u, rfl, rfl⟩ := innerSym_var h3
        obtain ⟨γ, h4⟩ := wf.closed _ _ _ h1 h2
        exact ⟨_, (hr _ _).2 (.inner h4)⟩)
    (by
      intro v β h
      cases (hr _ _).1 h with
      | inner h1 => simpa using wf.nonempty _ _ h1
      | _ => simp)
  exact ⟨H, h1, h2, fun v β => (h3 v β).trans (hr v β)⟩

variable [TerminalEq T] [LawfulTerminalEq T]

omit [DecidableEq W] [DecidableEq T] in
private theorem toTok_renaming (hf : ListFit i opening sep closing) {hole : T} (ho : teq opening hole = false)
    (hs : teq sep hole = false) (hc : teq closing hole = false) :
    Renaming (id : ListVar → ListVar) (toTok hole opening sep closing) := by
  have symm : ∀ {t u : T}, teq t u = false → teq u t = false := by
    intro t u h
    rw [← Bool.not_eq_true] at h ⊢
    exact fun h' => h (LawfulTerminalEq.symm _ _ h')
  have kinds : ∀ t u, teq (toTok hole opening sep closing t) (toTok hole opening sep closing u) = teq t u := by
    have refl : ∀ t : T, teq t t = true := LawfulTerminalEq.refl
    intro t u
    cases t <;> cases u <;> simp [toTok, teq, refl, ho, hs, hc, symm ho, symm hs, symm hc, hf.opening_sep,
      hf.opening_closing, hf.sep_closing, symm hf.opening_sep, symm hf.opening_closing, symm hf.sep_closing]
  refine ⟨fun _ _ h => h, fun t u h => ?_, kinds⟩
  have := kinds t u
  rw [h, LawfulTerminalEq.refl] at this
  simpa [teq] using this.symm

omit [DecidableEq T] [TerminalEq T] [LawfulTerminalEq T] in
private theorem lists_hasTerm {hole t : T} (h : HasTerm (listsOf hole opening sep closing) t) :
    ∃ u, t = toTok hole opening sep closing u := by
  obtain ⟨v, β, h1, h2⟩ := h
  obtain ⟨v, β, rfl, rfl, h⟩ := renamed_rule h1
  obtain ⟨x, _, h2⟩ := List.mem_map.1 h2
  cases x with
  | term u => cases h2; exact ⟨u, rfl⟩
  | var _ => cases h2
  | eps => cases h2

omit [DecidableEq W] [DecidableEq T] in
private theorem lists_fit (hf : ListFit i opening sep closing) {hole : T} (ho : teq opening hole = false)
    (hs : teq sep hole = false) (hc : teq closing hole = false) (hi : ∀ t, HasTerm i t → teq hole t = false) :
    Fit (listsOf hole opening sep closing) i hole where
  outerEps := by
    intro v β h
    rcases listsOf_rule h with ⟨_, rfl⟩ | ⟨_, rfl⟩ | ⟨_, rfl⟩ | ⟨_, rfl⟩ | ⟨_, rfl⟩ | ⟨_, rfl⟩ <;> simp
  innerEps := hf.eps
  outerKinds t u ht hu h := by
    obtain ⟨t, rfl⟩ := lists_hasTerm ht
    obtain ⟨u, rfl⟩ := lists_hasTerm hu
    rw [(toTok_renaming hf ho hs hc).kinds] at h
    rw [of_decide_eq_true h]
  innerKinds := hf.kinds
  differ t u ht hu := by
    obtain ⟨t, rfl⟩ := lists_hasTerm ht
    cases t with
    | elem => exact hi u hu
    | opening => exact hf.opening u hu
    | sep => exact hf.sep u hu
    | closing => exact hf.closing u hu
  hole := ⟨.data, [.term hole], by simp [listsOf_rules], List.mem_cons_self⟩
  notTwice v x y h := by
    have := lists_chain h
    rw [List.isChain_append] at this
    have h1 := (List.isChain_cons_cons.1 this.2.1).1
    have refl : ∀ t : T, teq t t = true := LawfulTerminalEq.refl
    simp only [Sym.term.injEq] at h1
    rcases h1 with (rfl | rfl) | (rfl | rfl)
    · rw [refl] at hs; cases hs
    · rw [refl] at ho; cases ho
    · rw [refl] at hs; cases hs
    · rw [refl] at hc; cases hc

omit [DecidableEq W] [TerminalEq T] [LawfulTerminalEq T] in
private theorem lists_rule {hole : T} (hno : hole ≠ opening) (hns : hole ≠ sep) (hnc : hole ≠ closing)
    (v : ListVar ⊕ W) (β : Body (ListVar ⊕ W) T) :
    ListRule i opening sep closing v β ↔ PluggedRule (listsOf hole opening sep closing) i hole v β := by
  have outer : ∀ v β, (v, β) ∈ (listsOf hole opening sep closing).rules →
      PluggedRule (listsOf hole opening sep closing) i hole (.inl v) (β.map (plugSym i.start hole)) :=
    fun _ _ h => .outer h
  constructor
  · intro h
    cases h with
    | leaf => simpa [plugSym] using outer .data [.term hole] (by simp [listsOf_rules])
    | list => simpa [plugSym, hno.symm] using outer .data [.term opening, .var .rest] (by simp [listsOf_rules])
    | done => simpa [plugSym, hnc.symm] using outer .rest [.term closing] (by simp [listsOf_rules])
    | some => simpa [plugSym, hnc.symm] using outer .rest [.var .items, .term closing] (by simp [listsOf_rules])
    | one => simpa [plugSym] using outer .items [.var .data] (by simp [listsOf_rules])
    | more => simpa [plugSym, hns.symm] using outer .items [.var .items, .term sep, .var .data] (by simp [listsOf_rules])
    | inner h => exact .inner h
  · intro h
    cases h with
    | outer h =>
      rcases listsOf_rule h with ⟨rfl, rfl⟩ | ⟨rfl, rfl⟩ | ⟨rfl, rfl⟩ | ⟨rfl, rfl⟩ | ⟨rfl, rfl⟩ | ⟨rfl, rfl⟩ <;>
        simp only [List.map_cons, List.map_nil, plugSym, if_true, if_neg hno.symm, if_neg hns.symm, if_neg hnc.symm]
      · exact .leaf
      · exact .list
      · exact .done
      · exact .some
      · exact .one
      · exact .more
    | inner h => exact .inner h

/-- The grammar of lists is the one with the elements in place of a terminal that is in neither of them. -/
private theorem lists_plugged (hr : ∀ v β, (v, β) ∈ H.rules ↔ ListRule i opening sep closing v β)
    (hf : ListFit i opening sep closing) {z : ListVar ⊕ W} {e f : T} (hn : NotIn H z e f) :
    Renaming (id : ListVar → ListVar) (toTok f opening sep closing) ∧ Fit (listsOf f opening sep closing) i f ∧
    ∀ v β, (v, β) ∈ H.rules ↔ PluggedRule (listsOf f opening sep closing) i f v β := by
  have symm : ∀ {t u : T}, teq t u = false → teq u t = false := by
    intro t u h
    rw [← Bool.not_eq_true] at h ⊢
    exact fun h' => h (LawfulTerminalEq.symm _ _ h')
  have ne : ∀ {t u : T}, teq t u = false → u ≠ t := by
    rintro t u h rfl
    rw [LawfulTerminalEq.refl] at h
    cases h
  have ho : teq opening f = false := hn.never _ _ _ ((hr _ _).2 .list) (by simp)
  have hs : teq sep f = false := hn.never _ _ _ ((hr _ _).2 .more) (by simp)
  have hc : teq closing f = false := hn.never _ _ _ ((hr _ _).2 .done) (by simp)
  have hif : ∀ t, HasTerm i t → teq f t = false := by
    rintro t ⟨v, β, h1, h2⟩
    exact symm (hn.never _ _ _ ((hr _ _).2 (.inner h1)) (List.mem_map.2 ⟨_, h2, rfl⟩))
  exact ⟨toTok_renaming hf ho hs hc, lists_fit hf ho hs hc hif,
    fun v β => (hr v β).trans (lists_rule (ne ho) (ne hs) (ne hc) v β)⟩

/-- C118.  If there is a parser for the elements, with an end marker, then there is one for lists of them, whatever the
iteration order. -/
theorem c118_parser (hi : Built i) (hH : Built H) (hs : H.start = .inl .data)
    (hr : ∀ v β, (v, β) ∈ H.rules ↔ ListRule i opening sep closing v β) (hf : ListFit i opening sep closing)
    {zi : W} {ei fi : T} {tbli : Table W T} (hni : NotIn i zi ei fi) (hpi : IsParser (withEnd i zi ei fi) tbli)
    {z : ListVar ⊕ W} {e f : T} (hn : NotIn H z e f) :
    (∃ tbl, IsParser (withEnd H z e f) tbl) ∧
    ∃ bound, ∀ fuel ≥ bound, ∀ ord : HashOrder, ∃ tbl, slrNew (withEnd H z e f) ord fuel = .ok tbl := by
  obtain ⟨hren, hfit, hr'⟩ := lists_plugged hr hf hn
  have hpl : Plugged (listsOf f opening sep closing) i f H := ⟨hs, hr'⟩
  have h1 := plug_oneEntry hpl hfit (bareLists_built.rename hren.vars hren.terms).wellFormed hi.wellFormed
    ((oneEntry_rename hren).2 bareLists_oneEntry) ((c86_table hi hf.eps hni).1.1 ⟨_, hpi⟩)
  obtain ⟨h2, bound, h3⟩ := c86_table hH (hpl.epsFree hfit) hn
  exact ⟨h2.2 h1, bound, fun fuel hf ord => (h3 fuel hf ord).2 h1⟩

/-! ## The trees of lists -/

omit [DecidableEq W] [DecidableEq T] [LawfulTerminalEq T] in
private theorem forest_inner (hr : ∀ v β, (v, β) ∈ H.rules ↔ ListRule i opening sep closing v β)
    {α : List (Sym W T)} {ns : List (Node W T)} {w : List T} (h : Forest i α ns w) :
    Forest H (α.map innerSym) (ns.map (Node.rename .inr id)) w := by
  induction h with
  | nil => exact .nil
  | eps _ ih => exact .eps ih
  | term h1 _ ih => exact .term h1 ih
  | @var v β α cs ns x w h1 _ _ ih1 ih2 =>
    have := Forest.var ((hr _ _).2 (.inner h1)) ih1 ih2
    simpa [innerSym, Node.rename, Sym.rename, renameTrees_eq, List.map_reverse] using this

/-- The text of the elements behind the first one. -/
private def tailText {X : Type} (opening sep closing : T) (f : X → List T) : List (Data X) → List T
  | [] => []
  | d :: ds => sep :: d.text opening sep closing f ++ tailText opening sep closing f ds

omit [DecidableEq T] [TerminalEq T] [LawfulTerminalEq T] in
private theorem itemsText_cons {X : Type} {f : X → List T} (d : Data X) (ds : List (Data X)) :
    itemsText opening sep closing f (d :: ds) = d.text opening sep closing f ++ tailText opening sep closing f ds := by
  induction ds generalizing d with
  | nil => simp [itemsText, tailText]
  | cons d' ds ih =>
    rw [itemsText, ih d', tailText]
    · simp
    · simp

omit [DecidableEq T] [TerminalEq T] [LawfulTerminalEq T] in
private theorem tailText_append {X : Type} {f : X → List T} (ds : List (Data X)) (d : Data X) :
    tailText opening sep closing f (ds ++ [d]) =
      tailText opening sep closing f ds ++ sep :: d.text opening sep closing f := by
  induction ds with
  | nil => simp [tailText]
  | cons d' ds ih => simp [tailText, ih]

section
variable {X : Type} {f : X → List T} {tr : X → Node W T}

mutual
private theorem data_forest (hr : ∀ v β, (v, β) ∈ H.rules ↔ ListRule i opening sep closing v β) :
    ∀ (d : Data X), d.All (fun x => ParseTree i (tr x) (f x)) →
      Forest H [.var (.inl .data)] [d.tree opening sep closing tr] (d.text opening sep closing f)
  | .leaf x, h => by
    have h1 : ParseTree i (tr x) (f x) := by simpa [Data.All] using h
    have h2 := Forest.var ((hr _ _).2 .leaf) (forest_inner hr h1) .nil
    simpa [Data.tree, Data.text, innerSym] using h2
  | .list [], _ => by
    have h1 : Forest H [.term closing] _ [closing] := .term (LawfulTerminalEq.refl _) .nil
    have h2 : Forest H [.term opening, .var (.inl .rest)] _ [opening, closing] :=
      .term (LawfulTerminalEq.refl _) (.var (w := []) ((hr _ _).2 .done) h1 .nil)
    simpa [Data.tree, Data.text, itemsText, dataTrees] using Forest.var ((hr _ _).2 .list) h2 .nil
  | .list (d :: ds), h => by
    have h : d.All (fun x => ParseTree i (tr x) (f x)) ∧ allData (fun x => ParseTree i (tr x) (f x)) ds := by
      simpa [Data.All, allData] using h
    have h1 := data_forest hr d h.1
    have h2 := items_forest hr ds h.2 (Forest.var ((hr _ _).2 .one) h1 .nil)
    have h3 : Forest H [.term closing] [.mk (.term closing) []] [closing] := .term (LawfulTerminalEq.refl _) .nil
    have h4 := forest_append h2 h3
    have h5 := Forest.term (t := opening) (LawfulTerminalEq.refl _) (Forest.var ((hr _ _).2 .some) h4 .nil)
    have h6 := Forest.var ((hr _ _).2 .list) h5 .nil
    simpa [Data.tree, Data.text, itemsText_cons, dataTrees, itemsTree] using h6

private theorem items_forest (hr : ∀ v β, (v, β) ∈ H.rules ↔ ListRule i opening sep closing v β) :
    ∀ (ds : List (Data X)), allData (fun x => ParseTree i (tr x) (f x)) ds →
      ∀ {n : Node (ListVar ⊕ W) T} {w : List T}, Forest H [.var (.inl .items)] [n] w →
      Forest H [.var (.inl .items)] [(dataTrees opening sep closing tr ds).foldl
        (fun before n => .mk (.var (.inl .items)) [n, .mk (.term sep) [], before]) n]
        (w ++ tailText opening sep closing f ds)
  | [], _, n, w, h => by simpa [dataTrees, tailText] using h
  | d :: ds, hd, n, w, h => by
    have hd : d.All (fun x => ParseTree i (tr x) (f x)) ∧ allData (fun x => ParseTree i (tr x) (f x)) ds := by
      simpa [allData] using hd
    have h1 := Forest.term (t := sep) (LawfulTerminalEq.refl _) (data_forest hr d hd.1)
    have h2 := Forest.var ((hr _ _).2 .more) (forest_append h h1) .nil
    have h3 := items_forest hr ds hd.2 h2
    simpa [dataTrees, tailText] using h3
end

end

/-! ## The texts that have trees -/

/-- What is derived from a symbol of the grammar of lists. -/
private def Means (i : Grammar W T) (opening sep closing : T) : Sym (ListVar ⊕ W) T → List T → Prop
  | .term t, w => ∃ u, w = [u] ∧ teq t u = true
  | .var (.inl .data), w => ∃ d : Data (List T), d.All (fun x => ∃ m, ParseTree i m x) ∧
      SameTokens (d.text opening sep closing id) w
  | .var (.inl .rest), w => ∃ ds : List (Data (List T)), allData (fun x => ∃ m, ParseTree i m x) ds ∧
      SameTokens (itemsText opening sep closing id ds ++ [closing]) w
  | .var (.inl .items), w => ∃ (d : Data (List T)) (ds : List (Data (List T))),
      allData (fun x => ∃ m, ParseTree i m x) (d :: ds) ∧ SameTokens (itemsText opening sep closing id (d :: ds)) w
  | .var (.inr v), w => ∃ ns, Forest i [.var v] ns w
  | .eps, w => w = []

/-- What is derived from symbols of the grammar of lists. -/
private def MeansAll (i : Grammar W T) (opening sep closing : T) : List (Sym (ListVar ⊕ W) T) → List T → Prop
  | [], w => w = []
  | x :: α, w => ∃ u v, w = u ++ v ∧ Means i opening sep closing x u ∧ MeansAll i opening sep closing α v

omit [DecidableEq W] [DecidableEq T] [LawfulTerminalEq T] in
private theorem means_inner {β : List (Sym W T)} {w : List T}
    (h : MeansAll i opening sep closing (β.map innerSym) w) : ∃ ns, Forest i β ns w := by
  induction β generalizing w with
  | nil => cases h; exact ⟨_, .nil⟩
  | cons x β ih =>
    obtain ⟨u, v, rfl, h1, h2⟩ := h
    obtain ⟨ns, h2⟩ := ih h2
    cases x with
    | term t =>
      obtain ⟨u, rfl, h1⟩ := h1
      exact ⟨_, .term h1 h2⟩
    | var v =>
      obtain ⟨ms, h1⟩ := h1
      exact ⟨_, forest_append h1 h2⟩
    | eps =>
      cases h1
      exact ⟨_, .eps h2⟩

omit [DecidableEq W] [DecidableEq T] [TerminalEq T] [LawfulTerminalEq T] in
private theorem allData_append {X : Type} {P : X → Prop} {ds es : List (Data X)} :
    allData P (ds ++ es) ↔ allData P ds ∧ allData P es := by
  induction ds with
  | nil => simp [allData]
  | cons d ds ih => simp [allData, ih, and_assoc]

omit [DecidableEq T] in
private theorem sameTokens_refl (w : List T) : SameTokens w w := by
  induction w with
  | nil => exact .nil
  | cons t w ih => exact .cons (LawfulTerminalEq.refl t) ih

omit [DecidableEq W] [DecidableEq T] in
private theorem means_rule {v : ListVar ⊕ W} {β : Body (ListVar ⊕ W) T} {w : List T}
    (hr : ListRule i opening sep closing v β) (h : MeansAll i opening sep closing β w) :
    Means i opening sep closing (.var v) w := by
  cases hr with
  | leaf =>
    obtain ⟨u, _, rfl, ⟨ns, h1⟩, rfl⟩ := h
    rw [List.append_nil]
    have : ∃ n, ns = [n] := by
      cases h1 with
      | var _ _ h2 => cases h2; exact ⟨_, rfl⟩
    obtain ⟨n, rfl⟩ := this
    exact ⟨.leaf u, ⟨n, h1⟩, sameTokens_refl u⟩
  | list =>
    obtain ⟨_, _, rfl, ⟨u, rfl, h1⟩, v, _, rfl, ⟨ds, h2, h3⟩, rfl⟩ := h
    refine ⟨.list ds, h2, ?_⟩
    rw [Data.text]
    simpa using SameTokens.cons h1 h3
  | done =>
    obtain ⟨_, _, rfl, ⟨u, rfl, h1⟩, rfl⟩ := h
    exact ⟨[], trivial, .cons h1 .nil⟩
  | some =>
    obtain ⟨u, _, rfl, ⟨d, ds, h1, h2⟩, _, _, rfl, ⟨v, rfl, h3⟩, rfl⟩ := h
    exact ⟨d :: ds, h1, sameTokens_append h2 (.cons h3 .nil)⟩
  | one =>
    obtain ⟨u, _, rfl, ⟨d, h1, h2⟩, rfl⟩ := h
    rw [List.append_nil]
    exact ⟨d, [], ⟨h1, trivial⟩, h2⟩
  | more =>
    obtain ⟨u, _, rfl, ⟨d, ds, h1, h2⟩, _, _, rfl, ⟨v, rfl, h3⟩, x, _, rfl, ⟨d', h4, h5⟩, rfl⟩ := h
    refine ⟨d, ds ++ [d'], ⟨h1.1, allData_append.2 ⟨h1.2, h4, trivial⟩⟩, ?_⟩
    rw [itemsText_cons] at h2 ⊢
    rw [tailText_append, ← List.append_assoc]
    simpa using sameTokens_append h2 (.cons h3 h5)
  | inner h1 =>
    obtain ⟨ns, h2⟩ := means_inner h
    have := Forest.var h1 h2 .nil
    rw [List.append_nil] at this
    exact ⟨_, this⟩

omit [DecidableEq W] [DecidableEq T] in
private theorem forest_means (hr : ∀ v β, (v, β) ∈ H.rules ↔ ListRule i opening sep closing v β)
    {α : List (Sym (ListVar ⊕ W) T)} {ns : List (Node (ListVar ⊕ W) T)} {w : List T} (h : Forest H α ns w) :
    MeansAll i opening sep closing α w := by
  induction h with
  | nil => rfl
  | eps _ ih => exact ⟨[], _, rfl, rfl, ih⟩
  | term h1 _ ih => exact ⟨[_], _, rfl, ⟨_, rfl, h1⟩, ih⟩
  | var h1 _ _ ih1 ih2 => exact ⟨_, _, rfl, means_rule ((hr _ _).1 h1) ih1, ih2⟩

mutual
private theorem all_mono {X : Type} {P Q : X → Prop} (h : ∀ x, P x → Q x) : ∀ d : Data X, d.All P → d.All Q
  | .leaf x, hd => by simpa [Data.All] using h x (by simpa [Data.All] using hd)
  | .list ds, hd => by simpa [Data.All] using allData_mono h ds (by simpa [Data.All] using hd)

private theorem allData_mono {X : Type} {P Q : X → Prop} (h : ∀ x, P x → Q x) :
    ∀ ds : List (Data X), allData P ds → allData Q ds
  | [], _ => by simp [allData]
  | d :: ds, hd => by
    rw [allData] at hd ⊢
    exact ⟨all_mono h d hd.1, allData_mono h ds hd.2⟩
end

omit [DecidableEq T] in
private theorem sameTokens_trans {u v w : List T} (h : SameTokens u v) (h' : SameTokens v w) : SameTokens u w := by
  induction h generalizing w with
  | nil => exact h'
  | cons h1 _ ih => cases h' with | cons h2 h3 => exact .cons (LawfulTerminalEq.trans _ _ _ h1 h2) (ih h3)

omit [DecidableEq W] [DecidableEq T] in
/-- C118.  The sentences are the texts of the lists whose elements are sentences of the grammar of the elements, with
tokens of the same kinds. -/
theorem c118_sentences (hs : H.start = .inl .data)
    (hr : ∀ v β, (v, β) ∈ H.rules ↔ ListRule i opening sep closing v β) (w : List T) :
    (∃ n, ParseTree H n w) ↔ ∃ d : Data (List T), d.All (fun x => ∃ m, ParseTree i m x) ∧
      SameTokens (d.text opening sep closing id) w := by
  constructor
  · rintro ⟨n, h⟩
    rw [ParseTree, hs] at h
    obtain ⟨u, _, rfl, h1, rfl⟩ := forest_means hr h
    rw [List.append_nil]
    exact h1
  · rintro ⟨d, h1, h2⟩
    classical
    have h3 : d.All fun x => ParseTree i (if h : ∃ m, ParseTree i m x then h.choose else .mk .eps []) (id x) := by
      refine all_mono (fun x h => ?_) d h1
      rw [dif_pos h]
      exact h.choose_spec
    have h4 := data_forest hr d h3
    rw [← hs] at h4
    obtain ⟨u, h5, h6⟩ := sentence_iff.1 ⟨_, h4⟩
    exact sentence_iff.2 ⟨u, h5, sameTokens_trans h6 h2⟩

/-- The tokens of a sentence are of the kinds of the terminals of the grammar. -/
private theorem forest_kinds {V : Type} {g : Grammar V T} {α : List (Sym V T)} {ns : List (Node V T)} {w : List T}
    (h : Forest g α ns w) (hα : ∀ t, Sym.term t ∈ α → HasTerm g t) : ∀ u ∈ w, ∃ t, HasTerm g t ∧ teq t u = true := by
  induction h with
  | nil => simp
  | eps _ ih => exact ih fun t ht => hα t (List.mem_cons_of_mem _ ht)
  | term h1 _ ih =>
    intro u hu
    rcases List.mem_cons.1 hu with rfl | hu
    · exact ⟨_, hα _ List.mem_cons_self, h1⟩
    · exact ih (fun t ht => hα t (List.mem_cons_of_mem _ ht)) u hu
  | var h1 _ _ ih1 ih2 =>
    intro u hu
    rcases List.mem_append.1 hu with hu | hu
    · exact ih1 (fun t ht => ⟨_, _, h1, ht⟩) u hu
    · exact ih2 (fun t ht => hα t (List.mem_cons_of_mem _ ht)) u hu

private theorem lists_reads (hi : Built i) (hH : Built H) (hs : H.start = .inl .data)
    (hr : ∀ v β, (v, β) ∈ H.rules ↔ ListRule i opening sep closing v β) (hf : ListFit i opening sep closing)
    (hri : ∀ v β, (v, β) ∈ i.rules → Reachable i v)
    (hfi : ∀ v β, (v, β) ∈ i.rules → ∃ t, InFirst i [.var v] (.term t))
    {z : ListVar ⊕ W} {e f : T} (hn : NotIn H z e f) {tbl : Table (ListVar ⊕ W) T}
    (hp : IsParser (withEnd H z e f) tbl) {input : List T} (hin : ∀ t ∈ input, teq f t = false) {fuel : Nat}
    (hfuel : (2 * input.length + 1) * (H.rules.length + 4) < fuel) :
    ∃ r, parseTokens tbl fuel input = .ok r ∧ ∀ n, r = some n ↔
      ∃ w e' m, input = w ++ [e'] ∧ teq e e' = true ∧ ParseTree H m w ∧ n = .mk (.var z) [.mk (.term e') [], m] := by
  obtain ⟨_, hfit, hr'⟩ := lists_plugged hr hf hn
  have hpl : Plugged (listsOf f opening sep closing) i f H := ⟨hs, hr'⟩
  have rdata : Reachable H (.inl .data) := hs ▸ .start
  have rrest : Reachable H (.inl .rest) := .step rdata ((hr _ _).2 .list) (by simp)
  have ritems : Reachable H (.inl .items) := .step rrest ((hr _ _).2 .some) (by simp)
  have inner : ∀ {w}, Reachable i w → Reachable H (.inr w) := by
    intro w h
    induction h with
    | start => exact .step rdata ((hr _ _).2 .leaf) (by simp)
    | step _ h1 h2 ih => exact .step ih ((hr _ _).2 (.inner h1)) (List.mem_map.2 ⟨_, h2, rfl⟩)
  have fdata : Starts H opening [.var (.inl .data)] := .inVar ((hr _ _).2 .list) .term
  have frest : Starts H closing [.var (.inl .rest)] := .inVar ((hr _ _).2 .done) .term
  have fitems : Starts H opening [.var (.inl .items)] := .inVar ((hr _ _).2 .one) fdata
  refine c86_reads hH (hpl.epsFree hfit) ?_ ?_ hn hp hin hfuel
  · intro v β h
    cases (hr _ _).1 h with
    | leaf | list => exact rdata
    | done | some => exact rrest
    | one | more => exact ritems
    | inner h1 => exact inner (hri _ _ h1)
  · intro v β h
    cases (hr _ _).1 h with
    | leaf | list => exact ⟨_, derives_starts.2 fdata⟩
    | done | some => exact ⟨_, derives_starts.2 frest⟩
    | one | more => exact ⟨_, derives_starts.2 fitems⟩
    | inner h1 =>
      obtain ⟨t, h2⟩ := hfi _ _ h1
      exact ⟨t, derives_starts.2 (starts_in hr' (derives_starts.1 h2) hf.eps hi.wellFormed (by simp))⟩

/-- C118.  If every variable of the grammar of the elements can be reached and has a FIRST set, the parser returns on every
input, after a number of iterations that is linear in its length: a tree if the input is the text of a list and the end
marker, and otherwise an error. -/
theorem c118_reads (hi : Built i) (hH : Built H) (hs : H.start = .inl .data)
    (hr : ∀ v β, (v, β) ∈ H.rules ↔ ListRule i opening sep closing v β) (hf : ListFit i opening sep closing)
    (hri : ∀ v β, (v, β) ∈ i.rules → Reachable i v)
    (hfi : ∀ v β, (v, β) ∈ i.rules → ∃ t, InFirst i [.var v] (.term t))
    {z : ListVar ⊕ W} {e f : T} (hn : NotIn H z e f) {tbl : Table (ListVar ⊕ W) T}
    (hp : IsParser (withEnd H z e f) tbl) {input : List T} (hin : ∀ t ∈ input, teq f t = false) {fuel : Nat}
    (hfuel : (2 * input.length + 1) * (H.rules.length + 4) < fuel) :
    ∃ r, parseTokens tbl fuel input = .ok r ∧ (r.isSome = true ↔ ∃ w e', input = w ++ [e'] ∧ teq e e' = true ∧
      ∃ d : Data (List T), d.All (fun x => ∃ m, ParseTree i m x) ∧ SameTokens (d.text opening sep closing id) w) := by
  obtain ⟨r, h1, h2⟩ := lists_reads hi hH hs hr hf hri hfi hn hp hin hfuel
  refine ⟨r, h1, ?_⟩
  constructor
  · intro h
    obtain ⟨n, rfl⟩ := Option.isSome_iff_exists.1 h
    obtain ⟨w, e', m, h3, h4, h5, _⟩ := (h2 n).1 rfl
    exact ⟨w, e', h3, h4, (c118_sentences hs hr w).1 ⟨m, h5⟩⟩
  · rintro ⟨w, e', h3, h4, h5⟩
    obtain ⟨m, h6⟩ := (c118_sentences hs hr w).2 h5
    rw [(h2 _).2 ⟨w, e', m, h3, h4, h6, rfl⟩]
    rfl

/-- C118.  On the text of a list the parser returns the tree of the list, made of the trees of what the list is made
of. -/
theorem c118_tree (hi : Built i) (hH : Built H) (hs : H.start = .inl .data)
    (hr : ∀ v β, (v, β) ∈ H.rules ↔ ListRule i opening sep closing v β) (hf : ListFit i opening sep closing)
    (hri : ∀ v β, (v, β) ∈ i.rules → Reachable i v)
    (hfi : ∀ v β, (v, β) ∈ i.rules → ∃ t, InFirst i [.var v] (.term t))
    {z : ListVar ⊕ W} {e f : T} (hn : NotIn H z e f) {tbl : Table (ListVar ⊕ W) T}
    (hp : IsParser (withEnd H z e f) tbl) {X : Type} {text : X → List T} {tree : X → Node W T} (d : Data X)
    (hd : d.All fun x => ParseTree i (tree x) (text x)) {fuel : Nat}
    (hfuel : (2 * ((d.text opening sep closing text).length + 1) + 1) * (H.rules.length + 4) < fuel) :
    parseTokens tbl fuel (d.text opening sep closing text ++ [e]) =
      .ok (some (.mk (.var z) [.mk (.term e) [], d.tree opening sep closing tree])) := by
  have h1 := data_forest hr d hd
  have symm : ∀ {t u : T}, teq t u = false → teq u t = false := by
    intro t u h
    rw [← Bool.not_eq_true] at h ⊢
    exact fun h' => h (LawfulTerminalEq.symm _ _ h')
  have hin : ∀ t ∈ d.text opening sep closing text ++ [e], teq f t = false := by
    intro t ht
    rcases List.mem_append.1 ht with ht | ht
    · obtain ⟨u, ⟨v, β, h2, h3⟩, h4⟩ := forest_kinds h1 (by simp) t ht
      have h5 := hn.never _ _ _ h2 h3
      rw [← Bool.not_eq_true] at h5 ⊢
      exact fun h6 => h5 (LawfulTerminalEq.trans _ _ _ h4 (LawfulTerminalEq.symm _ _ h6))
    · rw [List.mem_singleton] at ht
      subst ht
      exact symm hn.differ
  obtain ⟨r, h2, h3⟩ := lists_reads hi hH hs hr hf hri hfi hn hp hin (by simpa using hfuel)
  rw [h2, (h3 _).2 ⟨_, e, _, rfl, LawfulTerminalEq.refl _, by rw [ParseTree, hs]; exact h1, rfl⟩]

/-- C118.  A grammar in which the start variable has a rule for the empty list and one for lists with elements, both
beginning with the bracket, has no parser. -/
theorem c118_direct (hH : Built H) (he : EpsFree H) {v : ListVar ⊕ W}
    (h1 : (H.start, [.term opening, .term closing]) ∈ H.rules)
    (h2 : (H.start, [.term opening, .var v, .term closing]) ∈ H.rules) {z : ListVar ⊕ W} {e f : T} (hn : NotIn H z e f) :
    ¬ ∃ tbl, IsParser (withEnd H z e f) tbl := by
  rw [(c86_table hH he hn).1]
  intro h
  have v1 : Viable H [] (H.start, ⟨[.term opening, .term closing], 0⟩) := .start h1 (fresh_iff.2 rfl)
  have v2 : Viable H [] (H.start, ⟨[.term opening, .var v, .term closing], 0⟩) := .start h2 (fresh_iff.2 rfl)
  have := (h _ _ _ _ _ (.shift v1 (reads_iff.2 rfl)) (.shift v2 (reads_iff.2 rfl)) (LawfulTerminalEq.refl opening)).1
  simp at this

/-! ## Lists of sums -/

private theorem sumsRule {v : String} {β : Body String String} (h : (v, β) ∈ sums.rules) :
    v = "S" ∧ (β = [.var "S", .term "+", .term "n"] ∨ β = [.term "n"]) := by
  have h : v = "S" ∧ β = [.var "S", .term "+", .term "n"] ∨ v = "S" ∧ β = [.term "n"] := by simpa [sums] using h
  rcases h with ⟨h1, h2⟩ | ⟨h1, h2⟩
  · exact ⟨h1, .inl h2⟩
  · exact ⟨h1, .inr h2⟩

private theorem sums_term {t : String} (h : HasTerm sums t) : t = "+" ∨ t = "n" := by
  obtain ⟨v, β, h1, h2⟩ := h
  rcases (sumsRule h1).2 with rfl | rfl <;> simp at h2 <;> simp [h2]

theorem sumLists_fit : ListFit sums "[" "," "]" where
  eps := by
    intro v β h
    rcases (sumsRule h).2 with rfl | rfl <;> simp
  kinds t u _ _ h := by simpa [teq] using h
  opening_sep := by decide
  opening_closing := by decide
  sep_closing := by decide
  opening t h := by rcases sums_term h with rfl | rfl <;> decide
  sep t h := by rcases sums_term h with rfl | rfl <;> decide
  closing t h := by rcases sums_term h with rfl | rfl <;> decide

/-- The tree of `n`. -/
private def treeN : Node String String := .mk (.var "S") [.mk (.term "n") []]

/-- The tree of `n + n`. -/
private def treeNN : Node String String := .mk (.var "S") [.mk (.term "n") [], .mk (.term "+") [], treeN]

/-- `[ n + n , [ ] , n ]`. -/
private def someList : Data (List String × Node String String) :=
  .list [.leaf (["n", "+", "n"], treeNN), .list [], .leaf (["n"], treeN)]

private theorem someList_text : someList.text "[" "," "]" Prod.fst = ["[", "n", "+", "n", ",", "[", "]", ",", "n", "]"] := by
  decide +kernel

private theorem someList_all : someList.All fun x => ParseTree sums x.2 x.1 := by
  have h1 : Forest sums [.term "n"] [.mk (.term "n") []] ["n"] := .term rfl .nil
  have h2 : Forest sums [.term "+", .term "n"] [.mk (.term "+") [], .mk (.term "n") []] ["+", "n"] :=
    .term rfl (.term rfl .nil)
  have h3 : Forest sums [.var "S", .term "+", .term "n"] [treeN, .mk (.term "+") [], .mk (.term "n") []]
      ["n", "+", "n"] := .var (x := ["n"]) (by decide) h1 h2
  have h4 : ParseTree sums treeNN ["n", "+", "n"] := .var (w := []) (by decide) h3 .nil
  have h5 : ParseTree sums treeN ["n"] := .var (w := []) (by decide) h1 .nil
  simp only [someList, Data.All, allData]
  exact ⟨h4, trivial, h5, trivial⟩

/-- There is a parser for lists of sums, and it returns the tree of `[ n + n , [ ] , n ]`. -/
example : ∃ (H : Grammar (ListVar ⊕ String) String) (tbl : Table (ListVar ⊕ String) String),
    IsParser (withEnd H (.inr "Z") "$" "#") tbl ∧
    ∃ fuel, parseTokens tbl fuel ["[", "n", "+", "n", ",", "[", "]", ",", "n", "]", "$"] =
      .ok (some (.mk (.var (.inr "Z")) [.mk (.term "$") [], someList.tree "[" "," "]" Prod.snd])) := by
  obtain ⟨H, hH, hs, hr⟩ := c118_grammar sums_built "[" "," "]"
  have hn : NotIn H (.inr "Z") "$" "#" := by
    have terms : ∀ {v β t}, (v, β) ∈ H.rules → Sym.term t ∈ β → t ∈ ["[", ",", "]", "+", "n"] := by
      intro v β t h ht
      cases (hr _ _).1 h with
      | inner h1 =>
        obtain ⟨x, h2, h3⟩ := List.mem_map.1 ht
        cases x with
        | term u =>
          cases h3
          rcases sums_term ⟨_, _, h1, h2⟩ with rfl | rfl <;> decide
        | var _ => cases h3
        | eps => cases h3
      | _ => simp at ht <;> simp [ht]
    refine ⟨?_, ?_, ?_, by decide⟩
    · intro β h
      cases (hr _ _).1 h with
      | inner h1 => exact absurd (sumsRule h1).1 (by decide)
    · exact fun v β t h ht => (by decide : ∀ t ∈ ["[", ",", "]", "+", "n"], teq t "$" = false) t (terms h ht)
    · exact fun v β t h ht => (by decide : ∀ t ∈ ["[", ",", "]", "+", "n"], teq t "#" = false) t (terms h ht)
  obtain ⟨⟨tbl, hp⟩, _⟩ := c118_parser sums_built hH hs hr sumLists_fit sums_notIn sumsWithEnd_parser hn
  refine ⟨H, tbl, hp, _, someList_text ▸ c118_tree sums_built hH hs hr sumLists_fit ?_ ?_ hn hp someList someList_all
    (Nat.lt_succ_self _)⟩
  · intro v β h
    rw [(sumsRule h).1]
    exact .start
  · intro v β h
    rw [(sumsRule h).1]
    exact ⟨"n", derives_starts.2 (.inVar (β := [.term "n"]) (by decide) .term)⟩

/-- `data → n | [ ] | [ items ]`, `items → data | items , data`: the rules begin with the same terminal. -/
private def directLists : Grammar (ListVar ⊕ String) String :=
  ⟨.inl .data, [(.inl .data, [.term "n"]), (.inl .data, [.term "[", .term "]"]),
    (.inl .data, [.term "[", .var (.inl .items), .term "]"]), (.inl .items, [.var (.inl .data)]),
    (.inl .items, [.var (.inl .items), .term ",", .var (.inl .data)])]⟩

example : ¬ ∃ tbl, IsParser (withEnd directLists (.inr "Z") "$" "#") tbl := by
  have rule : ∀ {v β}, (v, β) ∈ directLists.rules → (∀ x ∈ β, x ≠ .eps) ∧ (∀ w, v ≠ .inr w) ∧
      ∀ t, Sym.term t ∈ β → teq t "$" = false ∧ teq t "#" = false := by
    intro v β h
    simp only [directLists, List.mem_cons, Prod.mk.injEq, List.not_mem_nil, or_false] at h
    rcases h with ⟨rfl, rfl⟩ | ⟨rfl, rfl⟩ | ⟨rfl, rfl⟩ | ⟨rfl, rfl⟩ | ⟨rfl, rfl⟩ <;> simp <;> decide
  refine c118_direct (opening := "[") (closing := "]") (v := .inl .items) ⟨[.setStart (.inl .data),
    .addRules (.inl .data) [[.term "n"], [.term "[", .term "]"], [.term "[", .var (.inl .items), .term "]"]],
    .addRules (.inl .items) [[.var (.inl .data)], [.var (.inl .items), .term ",", .var (.inl .data)]]], by decide⟩
    (fun v β h h' => (rule h).1 _ h' rfl) (by simp [directLists]) (by simp [directLists])
    ⟨fun β h => (rule h).2.1 _ rfl, fun v β t h ht => ((rule h).2.2 t ht).1, fun v β t h ht => ((rule h).2.2 t ht).2,
      by decide⟩

end Pango.Props

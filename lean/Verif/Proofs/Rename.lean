import Verif.Spec.Rename

/-!
# Lemmas about renaming

What is defined by rules with positive premises only is kept by every renaming, injective or not.  If the renaming can be
undone, then so is everything else.
-/

namespace Pango.Spec

open Pango.Parse

variable {V T V' T' : Type} {f : V → V'} {k : T → T'} {g : Grammar V T}

local notation "ren" => Sym.rename

/-- The same item with other names. -/
def renameItem (f : V → V') (k : T → T') (i : Item V T) : Item V' T' := ⟨i.body.map (ren f k), i.cursor⟩

theorem rename_rule {v : V} {β : Body V T} (h : (v, β) ∈ g.rules) : (f v, β.map (ren f k)) ∈ (g.rename f k).rules :=
  List.mem_map_of_mem (f := renameRule f k) h

theorem rename_ne_eps {rest : List (Sym V T)} (h : ∀ r, rest ≠ .eps :: r) (r : List (Sym V' T')) :
    rest.map (ren f k) ≠ .eps :: r := by
  intro he
  match rest, h with
  | [], _ => simp at he
  | .eps :: r, h => exact h r rfl
  | .var _ :: _, _ => simp [Sym.rename] at he
  | .term _ :: _, _ => simp [Sym.rename] at he

theorem Reads.rename {i : Item V T} {x : Sym V T} (h : Reads i x) : Reads (renameItem f k i) (x.rename f k) := by
  obtain ⟨pre, post, h1, h2⟩ := h
  exact ⟨pre.map (ren f k), post.map (ren f k), by simp [renameItem, h1], by simp [renameItem, h2]⟩

theorem Fresh.rename {β : Body V T} {i : Item V T} (h : Fresh β i) : Fresh (β.map (ren f k)) (renameItem f k i) := by
  obtain ⟨h1, rest, h2, h3⟩ := h
  refine ⟨by simp [renameItem, h1], rest.map (ren f k), ?_, rename_ne_eps h3⟩
  rw [h2]
  simp [renameItem, Sym.rename]

theorem Advanced.rename {i j : Item V T} {x : Sym V T} (h : Advanced i x j) :
    Advanced (renameItem f k i) (x.rename f k) (renameItem f k j) := by
  obtain ⟨h1, pre, n, rest, h2, h3, h4, h5⟩ := h
  refine ⟨by simp [renameItem, h1], pre.map (ren f k), n, rest.map (ren f k), ?_, rename_ne_eps h3, ?_, ?_⟩
  · simp [renameItem, h2, Sym.rename]
  · simp [renameItem, h4]
  · simp [renameItem, h5]

theorem Complete.rename {i : Item V T} (h : Complete i) : Complete (renameItem f k i) := by
  simpa [Complete, renameItem] using h

theorem Viable.rename {γ : List (Sym V T)} {p : V × Item V T} (h : Viable g γ p) :
    Viable (g.rename f k) (γ.map (ren f k)) (f p.1, renameItem f k p.2) := by
  induction h with
  | start hr hi => exact .start (rename_rule hr) hi.rename
  | expand _ hx hr hj ih => exact .expand ih (hx.rename (f := f) (k := k)) (rename_rule hr) hj.rename
  | read _ hj ih =>
    rw [List.map_append]
    exact .read ih hj.rename

theorem Step.rename {x y : List (Sym V T)} (h : Step g x y) :
    Step (g.rename f k) (x.map (ren f k)) (y.map (ren f k)) := by
  cases h with
  | rule hr => simpa [Sym.rename] using Step.rule (x := _) (rename_rule (f := f) (k := k) hr)
  | eps => simpa [Sym.rename] using Step.eps

theorem Derives.rename {x y : List (Sym V T)} (h : Derives g x y) :
    Derives (g.rename f k) (x.map (ren f k)) (y.map (ren f k)) := by
  induction h with
  | refl => exact .refl
  | step _ hs ih => exact .step ih hs.rename

theorem InFirst.rename {v : V} {t : T} (h : InFirst g [.var v] (.term t)) :
    InFirst (g.rename f k) [.var (f v)] (.term (k t)) := by
  obtain ⟨β, h⟩ := h
  exact ⟨β.map (ren f k), by simpa [Sym.rename] using h.rename (f := f) (k := k)⟩

theorem InFollow.rename {v : V} {t : T} (h : InFollow g v (.term t)) :
    InFollow (g.rename f k) (f v) (.term (k t)) := by
  obtain ⟨w, α, β, h⟩ := h
  exact ⟨f w, α.map (ren f k), β.map (ren f k), by simpa [Sym.rename] using h.rename (f := f) (k := k)⟩

theorem Followed.rename {v : V} (h : Followed g v) : Followed (g.rename f k) (f v) := by
  obtain ⟨h, pre, x, post, hr⟩ := h
  exact ⟨f h, pre.map (ren f k), x.rename f k, post.map (ren f k), by
    simpa [Sym.rename] using rename_rule (f := f) (k := k) hr⟩

theorem Followable.rename {v : V} (h : Followable g v) : Followable (g.rename f k) (f v) := by
  induction h with
  | behind h => exact .behind h.rename
  | last hr _ ih => exact .last (by simpa [Sym.rename] using rename_rule (f := f) (k := k) hr) ih

theorem Reachable.rename {v : V} (h : Reachable g v) : Reachable (g.rename f k) (f v) := by
  induction h with
  | start => exact .start
  | step _ hr hv ih => exact .step ih (rename_rule hr) (List.mem_map_of_mem (f := ren f k) hv)

/-! ## Undoing a renaming -/

variable {f' : V' → V} {k' : T' → T}

theorem Sym.rename_undo (hf : ∀ v, f' (f v) = v) (hk : ∀ t, k' (k t) = t) (x : Sym V T) :
    (x.rename f k).rename f' k' = x := by
  cases x <;> simp [Sym.rename, hf, hk]

theorem rename_undo_list (hf : ∀ v, f' (f v) = v) (hk : ∀ t, k' (k t) = t) (l : List (Sym V T)) :
    (l.map (ren f k)).map (ren f' k') = l := by
  rw [List.map_map]
  conv => rhs; rw [← List.map_id l]
  exact List.map_congr_left fun x _ => Sym.rename_undo hf hk x

theorem rename_undo (hf : ∀ v, f' (f v) = v) (hk : ∀ t, k' (k t) = t) (g : Grammar V T) :
    (g.rename f k).rename f' k' = g := by
  obtain ⟨s, rules⟩ := g
  simp only [Grammar.rename, hf, List.map_map, Grammar.mk.injEq, true_and]
  conv => rhs; rw [← List.map_id rules]
  refine List.map_congr_left fun r _ => ?_
  simp only [Function.comp, renameRule, hf, rename_undo_list hf hk, id]

theorem renameItem_undo (hf : ∀ v, f' (f v) = v) (hk : ∀ t, k' (k t) = t) (i : Item V T) :
    renameItem f' k' (renameItem f k i) = i := by
  simp only [renameItem, rename_undo_list hf hk]

/-- An injective function can be undone. -/
theorem undo_of_inj {α β : Type} (a : α) {f : α → β} (h : ∀ x y, f x = f y → x = y) : ∃ f' : β → α, ∀ x, f' (f x) = x := by
  classical
  refine ⟨fun y => if h : ∃ x, f x = y then h.choose else a, fun x => ?_⟩
  have hx : ∃ x', f x' = f x := ⟨x, rfl⟩
  change dite _ _ _ = _
  rw [dif_pos hx]
  exact h _ _ hx.choose_spec

/-- The rules of a renamed grammar are renamed rules. -/
theorem renamed_rule {v' : V'} {β' : Body V' T'} (hr : (v', β') ∈ (g.rename f k).rules) :
    ∃ v, ∃ β : Body V T, v' = f v ∧ β' = β.map (ren f k) ∧ (v, β) ∈ g.rules := by
  obtain ⟨⟨v, β⟩, hm, h⟩ := List.mem_map.1 hr
  cases h
  exact ⟨v, β, rfl, rfl, hm⟩

/-- The items of a renamed grammar are renamed items. -/
theorem Viable.renamed {γ' : List (Sym V' T')} {p : V' × Item V' T'} (h : Viable (g.rename f k) γ' p) :
    ∃ (γ : List (Sym V T)) (v : V) (i : Item V T), γ' = γ.map (ren f k) ∧ p = (f v, renameItem f k i) := by
  induction h with
  | @start β i hr hi =>
    obtain ⟨_, β, _, rfl, _⟩ := renamed_rule hr
    exact ⟨[], g.start, ⟨β, i.cursor⟩, rfl, by rw [renameItem, ← hi.1]; rfl⟩
  | @expand _ _ _ _ j _ _ _ hr hj ih =>
    obtain ⟨v, β, rfl, rfl, _⟩ := renamed_rule hr
    obtain ⟨γ, _, _, h, _⟩ := ih
    exact ⟨γ, v, ⟨β, j.cursor⟩, h, by rw [renameItem, ← hj.1]⟩
  | @read _ _ _ j x _ hj ih =>
    obtain ⟨γ, v, i, rfl, h⟩ := ih
    obtain ⟨rfl, rfl⟩ := Prod.mk.injEq .. ▸ h
    obtain ⟨hb, pre, n, rest, hi, _⟩ := hj
    have hb : j.body = i.body.map (ren f k) := hb
    have hx : x ∈ i.body.map (ren f k) := by
      rw [show i.body.map (ren f k) = _ from hi]
      simp
    obtain ⟨y, _, rfl⟩ := List.mem_map.1 hx
    exact ⟨γ ++ [y], v, ⟨i.body, j.cursor⟩, by simp, by rw [renameItem, ← hb]⟩

/-- What a variable of a renamed grammar derives has only renamed symbols. -/
theorem Derives.renamed {w : V'} {δ : List (Sym V' T')} (h : Derives (g.rename f k) [.var w] δ) :
    δ = [.var w] ∨ ∀ x ∈ δ, ∃ y : Sym V T, x = y.rename f k := by
  generalize hα : [Sym.var w] = α at h
  induction h with
  | refl => exact .inl rfl
  | step _ hs ih =>
    subst hα
    right
    cases hs with
    | @rule x y β v hr =>
      obtain ⟨_, β, _, rfl, _⟩ := renamed_rule hr
      have hxy : ∀ z ∈ x ++ y, ∃ y : Sym V T, z = y.rename f k := by
        rcases ih with h | h
        · have := congrArg List.length h
          simp only [List.length_append, List.length_cons, List.length_nil] at this
          obtain rfl : x = [] := List.length_eq_zero_iff.1 (by omega)
          obtain rfl : y = [] := List.length_eq_zero_iff.1 (by omega)
          simp
        · intro z hz
          refine h z ?_
          simp only [List.mem_append, List.mem_cons] at hz ⊢
          rcases hz with hz | hz
          · exact .inl hz
          · exact .inr (.inr hz)
      intro z hz
      simp only [List.mem_append] at hz
      rcases hz with hz | hz | hz
      · exact hxy z (List.mem_append.2 (.inl hz))
      · obtain ⟨y, _, rfl⟩ := List.mem_map.1 hz
        exact ⟨y, rfl⟩
      · exact hxy z (List.mem_append.2 (.inr hz))
    | @eps x y =>
      intro z hz
      rcases ih with h | h
      · have h' : Sym.eps ∈ [(Sym.var w : Sym V' T')] := by rw [← h]; simp
        simp at h'
      · refine h z ?_
        simp only [List.mem_append, List.mem_cons] at hz ⊢
        rcases hz with hz | hz
        · exact .inl hz
        · exact .inr (.inr hz)

section
variable (hf : ∀ v, f' (f v) = v) (hk : ∀ t, k' (k t) = t)
include hf hk

theorem Viable.undo {γ : List (Sym V T)} {p : V' × Item V' T'} (h : Viable (g.rename f k) (γ.map (ren f k)) p) :
    ∃ v i, p = (f v, renameItem f k i) ∧ Viable g γ (v, i) := by
  obtain ⟨_, v, i, _, rfl⟩ := h.renamed
  have := h.rename (f := f') (k := k')
  simp only [rename_undo hf hk, rename_undo_list hf hk, renameItem_undo hf hk, hf] at this
  exact ⟨v, i, rfl, this⟩

theorem Reads.undo {i : Item V T} {x : Sym V' T'} (h : Reads (renameItem f k i) x) :
    ∃ y, x = y.rename f k ∧ Reads i y := by
  have h1 := h.rename (f := f') (k := k')
  rw [renameItem_undo hf hk] at h1
  refine ⟨_, ?_, h1⟩
  obtain ⟨pre, post, h2, _⟩ := h
  have hx : x ∈ i.body.map (ren f k) := by
    rw [show i.body.map (ren f k) = _ from h2]
    simp
  obtain ⟨y, _, rfl⟩ := List.mem_map.1 hx
  rw [Sym.rename_undo hf hk]

omit hf hk in
theorem Complete.undo {i : Item V T} (h : Complete (renameItem f k i)) : Complete i := by
  simpa [Complete, renameItem] using h

theorem InFollow.undo {v : V} {t : T'} (h : InFollow (g.rename f k) (f v) (.term t)) :
    ∃ u, t = k u ∧ InFollow g v (.term u) := by
  have h1 := h.rename (f := f') (k := k')
  rw [rename_undo hf hk, hf] at h1
  refine ⟨_, ?_, h1⟩
  obtain ⟨w, α, β, h⟩ := h
  rcases h.renamed with h2 | h2
  · have := congrArg List.length h2
    simp only [List.length_append, List.length_cons, List.length_nil] at this
    omega
  · obtain ⟨y, hy⟩ := h2 (.term t) (by simp)
    cases y with
    | term u =>
      cases hy
      rw [hk]
    | var _ => cases hy
    | eps => cases hy

theorem Followed.undo {v : V} (h : Followed (g.rename f k) (f v)) : Followed g v := by
  have := h.rename (f := f') (k := k')
  rwa [rename_undo hf hk, hf] at this

theorem Followable.undo {v : V} (h : Followable (g.rename f k) (f v)) : Followable g v := by
  have := h.rename (f := f') (k := k')
  rwa [rename_undo hf hk, hf] at this

theorem Needs.undo {accepts : Prop} {γ : List (Sym V T)} {p : V' × Item V' T'} {o : Option T'}
    (h : Needs (g.rename f k) accepts (γ.map (ren f k)) p o) :
    ∃ v i o', p = (f v, renameItem f k i) ∧ o = o'.map k ∧ Needs g accepts γ (v, i) o' := by
  generalize hγ : γ.map (ren f k) = γ' at h
  cases h with
  | shift hv hr =>
    subst hγ
    obtain ⟨v, i, h1, h2⟩ := hv.undo hf hk
    obtain ⟨rfl, rfl⟩ := Prod.mk.inj h1
    obtain ⟨y, h3, h4⟩ := hr.undo hf hk
    cases y with
    | term t => cases h3; exact ⟨v, i, some t, rfl, rfl, .shift h2 h4⟩
    | var _ => cases h3
    | eps => cases h3
  | reduce hv hc hfo =>
    subst hγ
    obtain ⟨v, i, h1, h2⟩ := hv.undo hf hk
    obtain ⟨rfl, rfl⟩ := Prod.mk.inj h1
    obtain ⟨t, rfl, h3⟩ := hfo.undo hf hk
    exact ⟨v, i, some t, rfl, rfl, .reduce h2 hc.undo h3⟩
  | @accept i hv hc ha =>
    subst hγ
    obtain ⟨v, i, h1, h2⟩ := hv.undo hf hk
    obtain ⟨h3, rfl⟩ := Prod.mk.inj h1
    obtain rfl : g.start = v := by
      have := congrArg f' h3
      simpa [Grammar.rename, hf] using this
    exact ⟨_, i, none, rfl, rfl, .accept h2 hc.undo ha⟩

end

theorem Needs.viable {accepts : Prop} {γ : List (Sym V T)} {p : V × Item V T} {o : Option T}
    (h : Needs g accepts γ p o) : Viable g γ p := by
  cases h with
  | shift h _ => exact h
  | reduce h _ _ => exact h
  | accept h _ _ => exact h

theorem Needs.rename {accepts : Prop} {γ : List (Sym V T)} {p : V × Item V T} {o : Option T}
    (h : Needs g accepts γ p o) :
    Needs (g.rename f k) accepts (γ.map (ren f k)) (f p.1, renameItem f k p.2) (o.map k) := by
  cases h with
  | shift hv hr => exact .shift hv.rename (hr.rename (f := f) (k := k))
  | reduce hv hc hfo => exact .reduce hv.rename hc.rename hfo.rename
  | accept hv hc ha => exact .accept hv.rename hc.rename ha

/-! ## The machine -/

theorem renameTrees_eq (ns : List (Node V T)) : renameTrees f k ns = ns.map (Node.rename f k) := by
  induction ns with
  | nil => rfl
  | cons n ns ih => simp [renameTrees, ih]

/-- The same configuration with other names. -/
def Config.rename (f : V → V') (k : T → T') (x : Config V T) : Config V' T' :=
  ⟨x.syms.map (ren f k), x.trees.map (Node.rename f k), x.input.map k⟩

/-- The same end with other names. -/
def Halt.rename (f : V → V') (k : T → T') : Halt V T → Halt V' T'
  | .tree n => .tree (n.rename f k)
  | .error => .error
  | .underflow => .underflow

variable [TerminalEq T] [TerminalEq T']

theorem ShiftReduce.rename (hteq : ∀ t u, teq (k t) (k u) = teq t u) {x y : Config V T} (h : ShiftReduce g x y) :
    ShiftReduce (g.rename f k) (x.rename f k) (y.rename f k) := by
  cases h with
  | @shift γ ns h i t u w hv hr ht =>
    have := ShiftReduce.shift (ns := ns.map (Node.rename f k)) (w := w.map k) (hv.rename (f := f) (k := k))
      (hr.rename (f := f) (k := k)) ((hteq t u).trans ht)
    simpa [Config.rename, Sym.rename, Node.rename, renameTrees] using this
  | @reduce γ ρ ns h h' i i' t u w hv hc hfo ht hl hv' hr =>
    have hv := hv.rename (f := f) (k := k)
    rw [List.map_append] at hv
    have := ShiftReduce.reduce (ns := ns.map (Node.rename f k)) (w := w.map k) hv hc.rename hfo.rename
      ((hteq t u).trans ht) (by simpa [renameItem] using hl) (hv'.rename (f := f) (k := k))
      (hr.rename (f := f) (k := k))
    simpa [Config.rename, Sym.rename, Node.rename, renameTrees_eq, renameItem, List.map_take, List.map_drop] using this

theorem ShiftReduces.rename (hteq : ∀ t u, teq (k t) (k u) = teq t u) {n : Nat} {x y : Config V T}
    (h : ShiftReduces g n x y) : ShiftReduces (g.rename f k) n (x.rename f k) (y.rename f k) := by
  induction h with
  | refl => exact .refl
  | step hs _ ih => exact .step (hs.rename hteq) ih

theorem keyEq_rename (hteq : ∀ t u, teq (k t) (k u) = teq t u) (o o' : Option T) :
    keyEq (o.map k) (o'.map k) = keyEq o o' := by
  cases o <;> cases o' <;> simp [keyEq, hteq]

theorem Halts.rename (hf : ∀ v, f' (f v) = v) (hk : ∀ t, k' (k t) = t) (hteq : ∀ t u, teq (k t) (k u) = teq t u)
    {accepts : Prop} {x : Config V T} {s : Halt V T} (h : Halts g accepts x s) :
    Halts (g.rename f k) accepts (x.rename f k) (s.rename f k) := by
  cases h with
  | @noAction γ ns w h =>
    refine .noAction fun p o hn => ?_
    obtain ⟨v, i, o', _, rfl, hn'⟩ := hn.undo hf hk
    rw [List.head?_map, keyEq_rename hteq]
    exact h _ _ hn'
  | @noGoto γ ρ ns h i t u w hv hc hfo ht hl hno =>
    have hv := hv.rename (f := f) (k := k)
    rw [List.map_append] at hv
    have := Halts.noGoto (accepts := accepts) (ns := ns.map (Node.rename f k)) (w := w.map k) hv hc.rename hfo.rename
      ((hteq t u).trans ht) (by simpa [renameItem] using hl) (fun q hq hr => by
        obtain ⟨v, i, rfl, hq'⟩ := hq.undo hf hk
        obtain ⟨y, hy, hr⟩ := Reads.undo hf hk hr
        cases y with
        | var v' =>
          have := congrArg f' (Sym.var.inj hy)
          simp only [hf] at this
          subst this
          exact hno _ hq' hr
        | term _ => cases hy
        | eps => cases hy)
    simpa [Config.rename, Halt.rename] using this
  | @accept γ ns i hv hc ha hl =>
    have := Halts.accept (accepts := accepts) (ns := ns.map (Node.rename f k)) (hv.rename (f := f) (k := k)) hc.rename ha
      (by simpa [renameItem] using hl)
    simpa [Config.rename, Halt.rename, Node.rename, renameTrees_eq, renameItem, List.map_take, Sym.rename, renameTrees,
      Grammar.rename] using this
  | @reduceUnder γ ns h i t u w hv hc hfo ht hl =>
    exact .reduceUnder (hv.rename (f := f) (k := k)) hc.rename hfo.rename ((hteq t u).trans ht)
      (by simpa [renameItem] using hl)
  | @acceptUnder γ ns i hv hc ha hl =>
    exact .acceptUnder (hv.rename (f := f) (k := k)) hc.rename ha (by simpa [renameItem] using hl)

theorem MachineRun.rename (hf : ∀ v, f' (f v) = v) (hk : ∀ t, k' (k t) = t) (hteq : ∀ t u, teq (k t) (k u) = teq t u)
    {accepts : Prop} {w : List T} {n : Nat} {s : Halt V T} (h : MachineRun g accepts w n s) :
    MachineRun (g.rename f k) accepts (w.map k) n (s.rename f k) := by
  obtain ⟨x, h1, h2⟩ := h
  exact ⟨x.rename f k, h1.rename hteq, h2.rename hf hk hteq⟩

end Pango.Spec

import Verif.Spec.Printed

/-!
# The text of a tree determines the tree
-/

namespace Pango.Parse

variable {V T : Type}

/-- The text ends at the beginning of a line, if it begins at the beginning of a line or not (the flag). -/
def AtLine : Bool → Text → Prop
  | b, [] => b = true
  | _, c :: s => AtLine (c == '\n') s

theorem AtLine.line : ∀ (b : Bool) (s : Text), AtLine b (s ++ ['\n'])
  | _, [] => by simp [AtLine]
  | _, c :: s => by
    simp only [List.cons_append, AtLine]
    exact AtLine.line _ s

theorem AtLine.append : ∀ {b : Bool} {s t : Text}, AtLine b s → AtLine true t → AtLine b (s ++ t)
  | _, [], _, hs, ht => by
    simp only [AtLine] at hs
    subst hs
    exact ht
  | _, c :: s, t, hs, ht => by
    simp only [List.cons_append, AtLine] at hs ⊢
    exact hs.append ht

theorem pad_append : ∀ {b : Bool} {s t : Text}, AtLine b s → pad b (s ++ t) = pad b s ++ pad true t
  | _, [], t, hs => by
    simp only [AtLine] at hs
    subst hs
    simp [pad]
  | true, c :: s, t, hs => by
    simp only [AtLine] at hs
    simp [pad, pad_append hs]
  | false, c :: s, t, hs => by
    simp only [AtLine] at hs
    simp [pad, pad_append hs]

/-- Where the indented lines end can be seen. -/
theorem pad_close : ∀ {b : Bool} {s s' : Text} {c c' : Char} {x x' : Text}, AtLine b s → AtLine b s' → c ≠ ' ' →
    c' ≠ ' ' → pad b s ++ c :: x = pad b s' ++ c' :: x' → s = s' ∧ c :: x = c' :: x'
  | b, [], s', c, c', x, x', hs, hs', hc, hc', h => by
    simp only [AtLine] at hs
    subst hs
    cases s' with
    | nil => exact ⟨rfl, by simpa [pad] using h⟩
    | cons a s' =>
      simp only [pad, List.nil_append, List.cons_append, List.cons.injEq] at h
      exact absurd h.1 hc
  | b, a :: s, [], c, c', x, x', hs, hs', hc, hc', h => by
    simp only [AtLine] at hs'
    subst hs'
    simp only [pad, List.nil_append, List.cons_append, List.cons.injEq] at h
    exact absurd h.1.symm hc'
  | true, a :: s, a' :: s', c, c', x, x', hs, hs', hc, hc', h => by
    simp only [pad, List.cons_append, List.cons.injEq, true_and] at h
    obtain ⟨rfl, h⟩ := h
    obtain ⟨rfl, h'⟩ := pad_close (b := a == '\n') hs hs' hc hc' h
    exact ⟨rfl, h'⟩
  | false, a :: s, a' :: s', c, c', x, x', hs, hs', hc, hc', h => by
    simp only [pad, List.cons_append, List.cons.injEq] at h
    obtain ⟨rfl, h⟩ := h
    obtain ⟨rfl, h'⟩ := pad_close (b := a == '\n') hs hs' hc hc' h
    exact ⟨rfl, h'⟩

theorem atLine_comma (s : Text) : AtLine true (s ++ [',', '\n']) := by
  rw [show s ++ [',', '\n'] = (s ++ [',']) ++ ['\n'] by simp]
  exact AtLine.line _ _

theorem atLine_flatMap : ∀ ls : List Text, AtLine true (ls.flatMap fun f => f ++ [',', '\n'])
  | [] => rfl
  | l :: ls => by
    simp only [List.flatMap_cons]
    exact (atLine_comma l).append (atLine_flatMap ls)

theorem pad_flatMap : ∀ ls : List Text,
    (ls.flatMap fun f => pad true (f ++ [',', '\n'])) = pad true (ls.flatMap fun f => f ++ [',', '\n'])
  | [] => rfl
  | l :: ls => by
    simp only [List.flatMap_cons]
    rw [pad_append (atLine_comma l), pad_flatMap ls]

/-! ## Printed on several lines -/

theorem tuple_pretty (name v : Text) :
    debugTuple .pretty name [v] = name ++ ('(' :: '\n' :: (pad true (v ++ [',', '\n']) ++ [')'])) := by
  simp [debugTuple]

theorem tuple_inj {name v v' x x' : Text}
    (h : debugTuple .pretty name [v] ++ x = debugTuple .pretty name [v'] ++ x') : v = v' ∧ x = x' := by
  rw [tuple_pretty, tuple_pretty, List.append_assoc, List.append_assoc, List.append_cancel_left_eq] at h
  simp only [List.cons_append, List.append_assoc, List.nil_append, List.cons.injEq, true_and] at h
  obtain ⟨h₁, h₂⟩ := pad_close (atLine_comma v) (atLine_comma v') (by decide) (by decide) h
  exact ⟨List.append_cancel_right h₁, by simpa using h₂⟩

theorem Sym.pretty_inj {d : Prints V T} (hd : d.Told .pretty) {s s' : Sym V T} {x x' : Text}
    (h : s.debug d .pretty ++ x = s'.debug d .pretty ++ x') : s = s' ∧ x = x' := by
  cases s <;> cases s'
  case term.term t t' =>
    obtain ⟨h₁, h₂⟩ := tuple_inj h
    exact ⟨congrArg _ (hd.2 _ _ h₁), h₂⟩
  case var.var v v' =>
    obtain ⟨h₁, h₂⟩ := tuple_inj h
    exact ⟨congrArg _ (hd.1 _ _ h₁), h₂⟩
  case eps.eps => exact ⟨rfl, List.append_cancel_left h⟩
  all_goals simp [Sym.debug, tuple_pretty] at h

theorem node_pretty (d : Prints V T) (s : Sym V T) (cs : List (Node V T)) :
    (Node.mk s cs).debug d .pretty = "Node {\n".toList ++ (pad true ("symbol: ".toList ++ (s.debug d .pretty ++
      (",\nchildren: ".toList ++ (debugList .pretty (Node.debugs d .pretty cs) ++ [',', '\n'])))) ++ ['}']) := by
  have : pad true ("symbol: ".toList ++ (s.debug d .pretty ++
      (",\nchildren: ".toList ++ (debugList .pretty (Node.debugs d .pretty cs) ++ [',', '\n'])))) =
      pad true ("symbol: ".toList ++ s.debug d .pretty ++ [',', '\n']) ++
      pad true ("children: ".toList ++ debugList .pretty (Node.debugs d .pretty cs) ++ [',', '\n']) := by
    rw [← pad_append (atLine_comma _)]
    simp
  rw [this]
  simp [Node.debug, debugStruct]

theorem list_pretty (v : Text) (vs : List Text) :
    debugList .pretty (v :: vs) =
      '[' :: '\n' :: (pad true ((v :: vs).flatMap fun f => f ++ [',', '\n']) ++ [']']) := by
  rw [← pad_flatMap]
  simp [debugList]

theorem atLine_node (d : Prints V T) (s : Sym V T) (l : Text) :
    AtLine true ("symbol: ".toList ++ (s.debug d .pretty ++ (",\nchildren: ".toList ++ (l ++ [',', '\n'])))) := by
  rw [← List.append_assoc, ← List.append_assoc, ← List.append_assoc]
  exact atLine_comma _

mutual

theorem Node.pretty_inj {d : Prints V T} (hd : d.Told .pretty) : ∀ (n n' : Node V T) (x x' : Text),
    n.debug d .pretty ++ x = n'.debug d .pretty ++ x' → n = n' ∧ x = x'
  | .mk s cs, .mk s' cs', x, x', h => by
    rw [node_pretty, node_pretty] at h
    simp only [List.append_assoc, List.append_cancel_left_eq] at h
    obtain ⟨h₁, h₂⟩ := pad_close (atLine_node _ _ _) (atLine_node _ _ _) (by decide) (by decide) h
    rw [List.append_cancel_left_eq] at h₁
    obtain ⟨rfl, h₃⟩ := Sym.pretty_inj hd h₁
    clear h₁
    have h₁ := List.append_cancel_right (List.append_cancel_left h₃)
    refine ⟨congrArg _ (Node.prettyAll_inj hd cs cs' ?_), by simpa using h₂⟩
    cases cs with
    | nil =>
      cases cs' with
      | nil => rfl
      | cons n' cs' =>
        rw [Node.debugs, Node.debugs, list_pretty] at h₁
        simp [debugList] at h₁
    | cons n cs =>
      cases cs' with
      | nil =>
        rw [Node.debugs, Node.debugs, list_pretty] at h₁
        simp [debugList] at h₁
      | cons n' cs' =>
        rw [Node.debugs, Node.debugs, list_pretty, list_pretty] at h₁
        simp only [List.cons.injEq, true_and] at h₁
        obtain ⟨h₁, -⟩ := pad_close (atLine_flatMap _) (atLine_flatMap _) (by decide) (by decide) h₁
        exact h₁

theorem Node.prettyAll_inj {d : Prints V T} (hd : d.Told .pretty) : ∀ ns ns' : List (Node V T),
    ((Node.debugs d .pretty ns).flatMap fun f => f ++ [',', '\n']) =
      ((Node.debugs d .pretty ns').flatMap fun f => f ++ [',', '\n']) → ns = ns'
  | [], [], _ => rfl
  | [], n' :: ns', h => by
    simp [Node.debugs] at h
  | n :: ns, [], h => by
    simp [Node.debugs] at h
  | n :: ns, n' :: ns', h => by
    simp only [Node.debugs, List.flatMap_cons, List.append_assoc] at h
    obtain ⟨rfl, h'⟩ := Node.pretty_inj hd n n' _ _ h
    rw [List.append_cancel_left_eq] at h'
    rw [Node.prettyAll_inj hd ns ns' h']

end

theorem resultText_pretty_inj {d : Prints V T} (hd : d.Told .pretty) {r r' : Option (Node V T)}
    (h : resultText d .pretty r = resultText d .pretty r') : r = r' := by
  cases r with
  | none =>
    cases r' with
    | none => rfl
    | some n' => simp [resultText, tuple_pretty] at h
  | some n =>
    cases r' with
    | none => simp [resultText, tuple_pretty] at h
    | some n' =>
      simp only [resultText] at h
      obtain ⟨h, -⟩ := tuple_inj (x := []) (x' := []) (by simpa using h)
      simp only [debugStruct, List.flatMap_cons, List.flatMap_nil, List.append_nil, List.append_assoc] at h
      have e : ∀ l : Text, AtLine true ("root".toList ++ (": ".toList ++ (l ++ ",\n".toList))) := fun l => by
        rw [← List.append_assoc, ← List.append_assoc]
        exact atLine_comma _
      rw [List.append_cancel_left_eq, List.append_cancel_left_eq] at h
      obtain ⟨h, -⟩ := pad_close (e _) (e _) (by decide) (by decide) (c := '}') (c' := '}') (x := []) (x' := []) h
      rw [List.append_cancel_left_eq, List.append_cancel_left_eq] at h
      rw [(Node.pretty_inj hd n n' _ _ h).1]

/-! ## Printed on one line -/

theorem tuple_compact (name v : Text) : debugTuple .compact name [v] = name ++ ('(' :: (v ++ [')'])) := by
  simp [debugTuple]

theorem Sym.compact_inj {d : Prints V T} (hd : d.Reads) {s s' : Sym V T} {x x' : Text}
    (h : s.debug d .compact ++ x = s'.debug d .compact ++ x') : s = s' ∧ x = x' := by
  cases s <;> cases s'
  case term.term t t' =>
    simp only [Sym.debug, tuple_compact, List.append_assoc, List.append_cancel_left_eq, List.cons_append,
      List.cons.injEq, true_and, List.nil_append] at h
    have e := hd.2 _ _ _ _ h
    subst e
    exact ⟨rfl, by simpa using h⟩
  case var.var v v' =>
    simp only [Sym.debug, tuple_compact, List.append_assoc, List.append_cancel_left_eq, List.cons_append,
      List.cons.injEq, true_and, List.nil_append] at h
    have e := hd.1 _ _ _ _ h
    subst e
    exact ⟨rfl, by simpa using h⟩
  case eps.eps => exact ⟨rfl, List.append_cancel_left h⟩
  all_goals simp [Sym.debug, tuple_compact] at h

/-- The nodes behind the first one, each behind a comma. -/
def moreText (d : Prints V T) (ns : List (Node V T)) : Text :=
  (Node.debugs d .compact ns).flatMap fun f => ", ".toList ++ f

theorem node_compact_nil (d : Prints V T) (s : Sym V T) :
    (Node.mk s []).debug d .compact = "Node { symbol: ".toList ++ (s.debug d .compact ++ ", children: [] }".toList) := by
  simp [Node.debug, Node.debugs, debugStruct, debugList]

theorem node_compact_cons (d : Prints V T) (s : Sym V T) (c : Node V T) (cs : List (Node V T)) :
    (Node.mk s (c :: cs)).debug d .compact = "Node { symbol: ".toList ++ (s.debug d .compact ++
      (", children: [".toList ++ (c.debug d .compact ++ (moreText d cs ++ "] }".toList)))) := by
  simp [Node.debug, Node.debugs, debugStruct, debugList, moreText]

theorem node_head (d : Prints V T) (n : Node V T) : ∃ x, n.debug d .compact = 'N' :: x := by
  obtain ⟨s, cs⟩ := n
  cases cs with
  | nil => exact ⟨_, node_compact_nil d s⟩
  | cons c cs => exact ⟨_, node_compact_cons d s c cs⟩

mutual

theorem Node.compact_inj {d : Prints V T} (hd : d.Reads) : ∀ (n n' : Node V T) (x x' : Text),
    n.debug d .compact ++ x = n'.debug d .compact ++ x' → n = n' ∧ x = x'
  | .mk s [], .mk s' [], x, x', h => by
    simp only [node_compact_nil, List.append_assoc, List.append_cancel_left_eq] at h
    obtain ⟨rfl, h₁⟩ := Sym.compact_inj hd h
    exact ⟨rfl, List.append_cancel_left h₁⟩
  | .mk s [], .mk s' (c :: cs), x, x', h => by
    simp only [node_compact_nil, node_compact_cons, List.append_assoc, List.append_cancel_left_eq] at h
    obtain ⟨rfl, h₁⟩ := Sym.compact_inj hd h
    obtain ⟨y, e⟩ := node_head d c
    simp [e] at h₁
  | .mk s (c :: cs), .mk s' [], x, x', h => by
    simp only [node_compact_nil, node_compact_cons, List.append_assoc, List.append_cancel_left_eq] at h
    obtain ⟨rfl, h₁⟩ := Sym.compact_inj hd h
    obtain ⟨y, e⟩ := node_head d c
    simp [e] at h₁
  | .mk s (c :: cs), .mk s' (c' :: cs'), x, x', h => by
    simp only [node_compact_cons, List.append_assoc, List.append_cancel_left_eq] at h
    obtain ⟨rfl, h₁⟩ := Sym.compact_inj hd h
    rw [List.append_cancel_left_eq] at h₁
    obtain ⟨rfl, h₂⟩ := Node.compact_inj hd c c' _ _ h₁
    obtain ⟨rfl, h₃⟩ := Node.more_inj hd cs cs' _ _ h₂
    exact ⟨rfl, h₃⟩

theorem Node.more_inj {d : Prints V T} (hd : d.Reads) : ∀ (ns ns' : List (Node V T)) (x x' : Text),
    moreText d ns ++ ("] }".toList ++ x) = moreText d ns' ++ ("] }".toList ++ x') → ns = ns' ∧ x = x'
  | [], [], x, x', h => ⟨rfl, by simpa [moreText, Node.debugs] using h⟩
  | [], n' :: ns', x, x', h => by
    simp [moreText, Node.debugs] at h
  | n :: ns, [], x, x', h => by
    simp [moreText, Node.debugs] at h
  | n :: ns, n' :: ns', x, x', h => by
    simp only [moreText, Node.debugs, List.flatMap_cons, List.append_assoc, List.append_cancel_left_eq] at h
    obtain ⟨rfl, h₁⟩ := Node.compact_inj hd n n' _ _ h
    obtain ⟨rfl, h₂⟩ := Node.more_inj hd ns ns' x x' h₁
    exact ⟨rfl, h₂⟩

end

theorem resultText_compact_inj {d : Prints V T} (hd : d.Reads) {r r' : Option (Node V T)}
    (h : resultText d .compact r = resultText d .compact r') : r = r' := by
  cases r with
  | none =>
    cases r' with
    | none => rfl
    | some n' => simp [resultText, tuple_compact] at h
  | some n =>
    cases r' with
    | none => simp [resultText, tuple_compact] at h
    | some n' =>
      simp only [resultText, tuple_compact, debugStruct, List.append_assoc, List.append_cancel_left_eq,
        List.cons.injEq, true_and, List.flatMap_nil, List.nil_append] at h
      rw [(Node.compact_inj hd n n' _ _ h).1]

/-! ## Which outputs can be told apart in front of a right parenthesis -/

theorem readText_inj : ∀ {s : Mark × Nat} {t t' x x' : Text}, readText s t = some (.plain, 0) →
    readText s t' = some (.plain, 0) → t ++ ')' :: x = t' ++ ')' :: x' → t = t'
  | s, [], [], _, _, _, _, _ => rfl
  | s, [], c :: t', _, _, h, h', e => by
    simp only [readText, Option.some.injEq] at h
    subst h
    simp only [List.nil_append, List.cons_append, List.cons.injEq] at e
    obtain ⟨rfl, -⟩ := e
    simp [readText, readChar] at h'
  | s, c :: t, [], _, _, h, h', e => by
    simp only [readText, Option.some.injEq] at h'
    subst h'
    simp only [List.nil_append, List.cons_append, List.cons.injEq] at e
    obtain ⟨rfl, -⟩ := e
    simp [readText, readChar] at h
  | s, c :: t, c' :: t', _, _, h, h', e => by
    simp only [List.cons_append, List.cons.injEq] at e
    obtain ⟨rfl, e⟩ := e
    simp only [readText] at h h'
    cases hs : readChar s c with
    | none => simp [hs] at h
    | some s' =>
      simp only [hs] at h h'
      rw [readText_inj h h' e]

theorem reads_of_balanced {α : Type} {f : α → Text} (hb : ∀ a, Balanced (f a)) (hf : ∀ a b, f a = f b → a = b) :
    Reads f := fun a b _ _ e => hf a b (readText_inj (hb a) (hb b) e)

end Pango.Parse

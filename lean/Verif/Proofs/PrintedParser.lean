import Verif.Model.PrintedParser
import Verif.Proofs.Maps
import Verif.Proofs.Printed
import Verif.Spec.PrintedParser

/-!
# The text of a grammar and of a parser determines it
-/

namespace Pango.Parse

variable {V T α β : Type}

/-- What is printed can be read up to one of the given characters. -/
def Delim (stops : List Char) (f : α → Text) : Prop :=
  ∀ a b c c' x y, c ∈ stops → c' ∈ stops → f a ++ c :: x = f b ++ c' :: y → a = b ∧ c :: x = c' :: y

/-- What is printed can be read whatever follows. -/
def SelfEnding (f : α → Text) : Prop := ∀ a b x y, f a ++ x = f b ++ y → a = b ∧ x = y

theorem SelfEnding.delim {f : α → Text} (h : SelfEnding f) (stops : List Char) : Delim stops f :=
  fun a b _ _ _ _ _ _ e => h a b _ _ e

theorem Delim.mono {f : α → Text} {s s' : List Char} (h : Delim s f) (hs : ∀ c ∈ s', c ∈ s) : Delim s' f :=
  fun a b _ _ _ _ hc hc' e => h a b _ _ _ _ (hs _ hc) (hs _ hc') e

/-! ## Lists, sets and maps -/

/-- Entries between brackets. -/
def seqText (o c : Char) (style : Style) (entries : List Text) : Text :=
  match entries with
  | [] => [o, c]
  | v :: entries =>
    match style with
    | .compact => o :: (v ++ (entries.flatMap (fun f => ", ".toList ++ f) ++ [c]))
    | .pretty => o :: '\n' :: (pad true ((v :: entries).flatMap fun f => f ++ [',', '\n']) ++ [c])

theorem debugList_seq (style : Style) (l : List Text) : debugList style l = seqText '[' ']' style l := by
  cases l with
  | nil => rfl
  | cons v l => cases style with
    | compact => simp [debugList, seqText]
    | pretty => rw [list_pretty]; rfl

theorem debugSet_seq (style : Style) (l : List Text) : debugSet style l = seqText '{' '}' style l := by
  cases l with
  | nil => rfl
  | cons v l => cases style with
    | compact => simp [debugSet, seqText]
    | pretty =>
      simp only [seqText]
      rw [← pad_flatMap]
      simp [debugSet]

/-- Entries of which each is followed by a comma and a line feed. -/
theorem lines_inj {f : α → Text} (hf : Delim [','] f) : ∀ l l' : List α,
    ((l.map f).flatMap fun t => t ++ [',', '\n']) = ((l'.map f).flatMap fun t => t ++ [',', '\n']) → l = l'
  | [], [], _ => rfl
  | [], a :: l, h => by simp at h
  | a :: l, [], h => by simp at h
  | a :: l, a' :: l', h => by
    simp only [List.map_cons, List.flatMap_cons, List.append_assoc, List.cons_append, List.nil_append] at h
    obtain ⟨rfl, h₁⟩ := hf _ _ _ _ _ _ (by simp) (by simp) h
    simp only [List.cons.injEq, true_and] at h₁
    rw [lines_inj hf l l' h₁]

/-- Entries of which each follows a comma and a space, up to the closing bracket. -/
theorem commas_inj {f : α → Text} {c : Char} (hc : c ≠ ',') (hf : Delim [',', c] f) : ∀ (l l' : List α) (x y : Text),
    ((l.map f).flatMap fun t => ", ".toList ++ t) ++ c :: x = ((l'.map f).flatMap fun t => ", ".toList ++ t) ++ c :: y →
    l = l' ∧ x = y
  | [], [], _, _, h => ⟨rfl, by simpa using h⟩
  | [], a :: l, x, y, h => by simp [hc] at h
  | a :: l, [], x, y, h => by simp [Ne.symm hc] at h
  | a :: l, a' :: l', x, y, h => by
    have next : ∀ (l : List α) (x : Text), ∃ c₁ r, c₁ ∈ [',', c] ∧
        ((l.map f).flatMap fun t => ", ".toList ++ t) ++ c :: x = c₁ :: r := by
      intro l x
      cases l with
      | nil => exact ⟨c, x, by simp, by simp⟩
      | cons b l => exact ⟨',', _, by simp, by simp; rfl⟩
    obtain ⟨c₁, r₁, hm₁, e₁⟩ := next l x
    obtain ⟨c₂, r₂, hm₂, e₂⟩ := next l' y
    simp only [List.map_cons, List.flatMap_cons, List.append_assoc, List.append_cancel_left_eq] at h
    rw [e₁, e₂] at h
    obtain ⟨rfl, h₁⟩ := hf _ _ _ _ _ _ hm₁ hm₂ h
    rw [← e₁, ← e₂] at h₁
    obtain ⟨rfl, rfl⟩ := commas_inj hc hf l l' x y h₁
    exact ⟨rfl, rfl⟩

theorem seq_inj {o c : Char} {style : Style} {f : α → Text} (hc : c ≠ ',' ∧ c ≠ ' ' ∧ c ≠ '\n')
    (hf : Delim [',', c] f) (hne : ∀ a, ∃ b r, f a = b :: r ∧ b ≠ c) :
    SelfEnding fun l : List α => seqText o c style (l.map f) := by
  intro l l' x y h
  cases l with
  | nil =>
    cases l' with
    | nil => exact ⟨rfl, by simpa [seqText] using h⟩
    | cons a' l' =>
      exfalso
      obtain ⟨b, r, hb, hbc⟩ := hne a'
      cases style <;> simp [seqText, hb] at h
      · exact hbc h.1.symm
      · exact hc.2.2 h.1
  | cons a l =>
    cases l' with
    | nil =>
      exfalso
      obtain ⟨b, r, hb, hbc⟩ := hne a
      cases style <;> simp [seqText, hb] at h
      · exact hbc h.1
      · exact hc.2.2 h.1.symm
    | cons a' l' =>
      cases style with
      | compact =>
        have key : (((a :: l).map f).flatMap fun t => ", ".toList ++ t) ++ c :: x =
            (((a' :: l').map f).flatMap fun t => ", ".toList ++ t) ++ c :: y := by
          simpa [seqText] using h
        exact commas_inj hc.1 hf _ _ _ _ key
      | pretty =>
        simp only [seqText, List.map_cons, List.cons_append, List.append_assoc, List.cons.injEq, true_and,
          List.nil_append] at h
        obtain ⟨h₁, h₂⟩ := pad_close (atLine_flatMap _) (atLine_flatMap _) hc.2.1 hc.2.1 h
        refine ⟨lines_inj (hf.mono (by simp)) (a :: l) (a' :: l') (by simpa using h₁), by simpa using h₂⟩

/-- An entry of a map. -/
theorem entry_delim {stops : List Char} {f : α → Text} {h : β → Text} (hf : Delim [':'] f) (hh : Delim stops h) :
    Delim stops fun e : α × β => f e.1 ++ ": ".toList ++ h e.2 := by
  rintro ⟨a, b⟩ ⟨a', b'⟩ c c' x y hc hc' e
  simp only [List.append_assoc] at e
  obtain ⟨rfl, e₁⟩ := hf a a' ':' ':' (' ' :: (h b ++ c :: x)) (' ' :: (h b' ++ c' :: y)) (by simp) (by simp) e
  simp only [List.cons.injEq, true_and] at e₁
  obtain ⟨rfl, e₂⟩ := hh _ _ _ _ _ _ hc hc' e₁
  exact ⟨rfl, e₂⟩

/-! ## Structures -/

theorem struct1_inj {style : Style} {name field : Text} {f : α → Text} (hf : Delim [',', ' '] f) :
    SelfEnding fun a => debugStruct style name [(field, f a)] := by
  intro a b x y h
  cases style with
  | compact =>
    simp only [debugStruct, List.flatMap_nil, List.append_nil, List.append_assoc, List.append_cancel_left_eq] at h
    obtain ⟨rfl, h₁⟩ := hf _ _ ' ' ' ' ('}' :: x) ('}' :: y) (by simp) (by simp) h
    exact ⟨rfl, by simpa using h₁⟩
  | pretty =>
    simp only [debugStruct, List.flatMap_cons, List.flatMap_nil, List.append_nil, List.append_assoc,
      List.append_cancel_left_eq] at h
    have e : ∀ a, AtLine true (field ++ (": ".toList ++ (f a ++ ",\n".toList))) := fun a => by
      rw [← List.append_assoc, ← List.append_assoc]
      exact atLine_comma _
    obtain ⟨h₁, h₂⟩ := pad_close (e a) (e b) (by decide) (by decide) (c := '}') (c' := '}') (x := x) (x' := y) h
    simp only [List.append_cancel_left_eq] at h₁
    obtain ⟨rfl, -⟩ := hf _ _ ',' ',' ['\n'] ['\n'] (by simp) (by simp) h₁
    exact ⟨rfl, by simpa using h₂⟩

theorem struct2_inj {style : Style} {name field field' : Text} {f : α → Text} {h : β → Text} (hf : Delim [','] f)
    (hh : Delim [',', ' '] h) :
    SelfEnding fun e : α × β => debugStruct style name [(field, f e.1), (field', h e.2)] := by
  rintro ⟨a, b⟩ ⟨a', b'⟩ x y e
  cases style with
  | compact =>
    simp only [debugStruct, List.flatMap_cons, List.flatMap_nil, List.append_nil, List.append_assoc,
      List.append_cancel_left_eq] at e
    obtain ⟨rfl, e₁⟩ := hf _ _ ',' ',' (' ' :: (field' ++ (": ".toList ++ (h b ++ (" }".toList ++ x)))))
      (' ' :: (field' ++ (": ".toList ++ (h b' ++ (" }".toList ++ y))))) (by simp) (by simp) e
    simp only [List.cons.injEq, true_and, List.append_cancel_left_eq] at e₁
    obtain ⟨rfl, e₂⟩ := hh _ _ ' ' ' ' ('}' :: x) ('}' :: y) (by simp) (by simp) e₁
    exact ⟨rfl, by simpa using e₂⟩
  | pretty =>
    have at1 : ∀ (n l : Text), AtLine true (n ++ ": ".toList ++ l ++ ",\n".toList) := fun n l => atLine_comma _
    have text : ∀ a b, debugStruct .pretty name [(field, f a), (field', h b)] = name ++ (" {\n".toList ++
        (pad true ((field ++ ": ".toList ++ f a ++ ",\n".toList) ++ (field' ++ ": ".toList ++ h b ++ ",\n".toList)) ++
          ['}'])) := by
      intro a b
      rw [pad_append (at1 _ _)]
      simp [debugStruct]
    simp only [text, List.append_assoc, List.append_cancel_left_eq, List.cons_append, List.nil_append] at e
    have at2 : ∀ a b, AtLine true (field ++ (": ".toList ++ (f a ++ (",\n".toList ++
        (field' ++ (": ".toList ++ (h b ++ ",\n".toList))))))) := by
      intro a b
      simpa only [List.append_assoc] using (at1 field (f a)).append (at1 field' (h b))
    obtain ⟨e₁, e₂⟩ := pad_close (at2 _ _) (at2 _ _) (by decide) (by decide) (c := '}') (c' := '}') (x := x) (x' := y) e
    simp only [List.append_cancel_left_eq] at e₁
    obtain ⟨rfl, e₃⟩ := hf _ _ ',' ',' ('\n' :: (field' ++ (": ".toList ++ (h b ++ ",\n".toList))))
      ('\n' :: (field' ++ (": ".toList ++ (h b' ++ ",\n".toList)))) (by simp) (by simp) e₁
    simp only [List.cons.injEq, true_and, List.append_cancel_left_eq] at e₃
    obtain ⟨rfl, -⟩ := hh _ _ ',' ',' ['\n'] ['\n'] (by simp) (by simp) e₃
    exact ⟨rfl, by simpa using e₂⟩

/-! ## Neat outputs and numbers -/

theorem neatText_inj : ∀ {s : Mark × Nat} {t t' : Text} {c c' : Char} {x x' : Text},
    c ∈ [')', ']', '}', ':', ','] → c' ∈ [')', ']', '}', ':', ','] → neatText s t = some (.plain, 0) →
    neatText s t' = some (.plain, 0) → t ++ c :: x = t' ++ c' :: x' → t = t' ∧ c :: x = c' :: x'
  | s, [], [], _, _, _, _, _, _, _, _, e => ⟨rfl, e⟩
  | s, [], b :: t', c, c', _, _, hc, _, h, h', e => by
    simp only [neatText, Option.some.injEq] at h
    subst h
    simp only [List.nil_append, List.cons_append, List.cons.injEq] at e
    obtain ⟨rfl, -⟩ := e
    exfalso
    simp only [List.mem_cons, List.not_mem_nil, or_false] at hc
    rcases hc with rfl | rfl | rfl | rfl | rfl <;> simp [neatText, neatChar] at h'
  | s, b :: t, [], c, c', _, _, _, hc', h, h', e => by
    simp only [neatText, Option.some.injEq] at h'
    subst h'
    simp only [List.nil_append, List.cons_append, List.cons.injEq] at e
    obtain ⟨rfl, -⟩ := e
    exfalso
    simp only [List.mem_cons, List.not_mem_nil, or_false] at hc'
    rcases hc' with rfl | rfl | rfl | rfl | rfl <;> simp [neatText, neatChar] at h
  | s, b :: t, b' :: t', c, c', _, _, hc, hc', h, h', e => by
    simp only [List.cons_append, List.cons.injEq] at e
    obtain ⟨rfl, e⟩ := e
    simp only [neatText] at h h'
    cases hs : neatChar s b with
    | none => simp [hs] at h
    | some s' =>
      simp only [hs] at h h'
      obtain ⟨rfl, e₁⟩ := neatText_inj hc hc' h h' e
      exact ⟨rfl, e₁⟩

theorem neat_delim {f : α → Text} (hb : ∀ a, Neat (f a)) (hf : ∀ a b, f a = f b → a = b) :
    Delim [')', ']', '}', ':', ','] f := fun a b _ _ _ _ hc hc' e =>
  have h := neatText_inj hc hc' (hb a) (hb b) e
  ⟨hf _ _ h.1, h.2⟩

theorem Neat.head {t : Text} (h : Neat t) : t.head? ≠ some '}' := by
  cases t with
  | nil => simp
  | cons c t =>
    simp only [List.head?_cons, ne_eq, Option.some.injEq]
    rintro rfl
    simp [Neat, neatText, neatChar] at h

theorem reads_of_neat {f : α → Text} (hb : ∀ a, Neat (f a)) (hf : ∀ a b, f a = f b → a = b) : Reads f :=
  fun a b _ _ e => (neat_delim hb hf a b ')' ')' _ _ (by simp) (by simp) e).1

theorem until_inj {p : Char → Prop} : ∀ {t t' : Text} {c c' : Char} {x x' : Text}, (∀ d ∈ t, p d) → (∀ d ∈ t', p d) →
    ¬ p c → ¬ p c' → t ++ c :: x = t' ++ c' :: x' → t = t' ∧ c :: x = c' :: x'
  | [], [], _, _, _, _, _, _, _, _, e => ⟨rfl, e⟩
  | [], b :: t', c, c', _, _, _, h', hc, _, e => by
    simp only [List.nil_append, List.cons_append, List.cons.injEq] at e
    exact absurd (e.1 ▸ h' b (by simp)) hc
  | b :: t, [], c, c', _, _, h, _, _, hc', e => by
    simp only [List.nil_append, List.cons_append, List.cons.injEq] at e
    exact absurd (e.1 ▸ h b (by simp)) hc'
  | b :: t, b' :: t', c, c', _, _, h, h', hc, hc', e => by
    simp only [List.cons_append, List.cons.injEq] at e
    obtain ⟨rfl, e⟩ := e
    obtain ⟨rfl, e₁⟩ := until_inj (fun d hd => h d (by simp [hd])) (fun d hd => h' d (by simp [hd])) hc hc' e
    exact ⟨rfl, e₁⟩

theorem debugNat_inj {n m : Nat} (h : debugNat n = debugNat m) : n = m := by
  rw [← Nat.ofDigitChars_ten_toDigits (n := n), show Nat.toDigits 10 n = Nat.toDigits 10 m from h,
    Nat.ofDigitChars_ten_toDigits]

theorem debugNat_delim : Delim [',', ' ', '}'] debugNat := by
  intro a b c c' x y hc hc' e
  have digit : ∀ n, ∀ d ∈ debugNat n, d.isDigit = true := fun n d hd =>
    Nat.isDigit_of_mem_toDigits (b := 10) (n := n) (by decide) (by decide) hd
  have stop : ∀ c ∈ [',', ' ', '}'], ¬ c.isDigit = true := by decide
  obtain ⟨h₁, h₂⟩ := until_inj (p := fun d => d.isDigit = true) (digit a) (digit b) (stop c hc) (stop c' hc') e
  exact ⟨debugNat_inj h₁, h₂⟩

/-! ## Grammars -/

/-- What the proofs need of the outputs: in front of a colon, a comma or a right brace for variables, in front of a right
parenthesis for terminals printed on one line. -/
structure Prints.Maps (d : Prints V T) (style : Style) : Prop where
  told : d.Told style
  var : Delim [')', ']', '}', ':', ','] (d.var style)
  head : ∀ v, (d.var style v).head? ≠ some '}'
  reads : style = .compact → Parse.Reads (d.term .compact)

theorem Prints.Maps.sym {d : Prints V T} {style : Style} (hd : d.Maps style) : SelfEnding (Sym.debug d style) := by
  intro a b x y h
  cases style with
  | compact =>
    refine Sym.compact_inj ⟨?_, hd.reads rfl⟩ h
    exact fun a b _ _ e => (hd.var a b ')' ')' _ _ (by simp) (by simp) e).1
  | pretty => exact Sym.pretty_inj hd.told h

theorem Prints.Maps.body {d : Prints V T} {style : Style} (hd : d.Maps style) : SelfEnding (bodyText d style) := by
  have : SelfEnding fun l : List (Sym V T) => seqText '[' ']' style (l.map (Sym.debug d style)) := by
    refine seq_inj (by decide) (hd.sym.delim _) fun a => ?_
    cases a <;> cases style <;> exact ⟨_, _, rfl, by decide⟩
  intro a b x y h
  simp only [bodyText, debugList_seq] at h
  exact this a b x y h

theorem Prints.Maps.bodies {d : Prints V T} {style : Style} (hd : d.Maps style) :
    SelfEnding fun bs : List (Body V T) => debugSet style (bs.map (bodyText d style)) := by
  simp only [debugSet_seq]
  refine seq_inj (by decide) (hd.body.delim _) fun a => ?_
  simp only [bodyText, debugList_seq]
  cases a with
  | nil => exact ⟨_, _, rfl, by decide⟩
  | cons s a => cases style <;> exact ⟨_, _, rfl, by decide⟩

theorem Prints.Maps.entry_head {d : Prints V T} {style : Style} (hd : d.Maps style) (v : V) (t : Text) :
    ∃ b r, d.var style v ++ ": ".toList ++ t = b :: r ∧ b ≠ '}' := by
  have := hd.head v
  cases h : d.var style v with
  | nil => exact ⟨':', _, rfl, by decide⟩
  | cons b r =>
    rw [h] at this
    exact ⟨b, _, rfl, by simpa using this⟩

theorem Prints.Maps.rules {d : Prints V T} {style : Style} (hd : d.Maps style) :
    SelfEnding fun rs : List (V × List (Body V T)) => debugMap style (rs.map fun r =>
      (d.var style r.1, debugSet style (r.2.map (bodyText d style)))) := by
  have := seq_inj (o := '{') (c := '}') (style := style) (by decide)
    (entry_delim (stops := [',', '}']) (hd.var.mono (by simp)) (hd.bodies.delim _)) (fun e => hd.entry_head e.1 _)
  simpa only [debugMap, debugSet_seq, List.map_map, Function.comp_def] using this

theorem grammarText_inj [DecidableEq V] {d : Prints V T} {style : Style} (hd : d.Maps style) {ord ord' : HashOrder}
    {g g' : Grammar V T} (h : grammarText d style ord g = grammarText d style ord' g') :
    g.start = g'.start ∧ rulesInOrder ord g.rules = rulesInOrder ord' g'.rules := by
  have := struct2_inj (style := style) (name := "Grammar".toList) (field := "start_variable".toList)
    (field' := "rules".toList) (hd.var.mono (s' := [',']) (by simp)) (hd.rules.delim [',', ' '])
    (g.start, rulesInOrder ord g.rules) (g'.start, rulesInOrder ord' g'.rules) [] []
    (by simp only [List.append_nil]; exact h)
  simpa using this.1

theorem mem_rulesInOrder [DecidableEq V] {ord : HashOrder} {rules : List (V × Body V T)} {v : V} {b : Body V T} :
    (∃ bs, (v, bs) ∈ rulesInOrder ord rules ∧ b ∈ bs) ↔ (v, b) ∈ rules := by
  simp only [rulesInOrder, List.mem_map, (ord.perm _ _ _).mem_iff, Prod.mk.injEq]
  constructor
  · rintro ⟨bs, ⟨k, hk, rfl, rfl⟩, hb⟩
    rw [(ord.perm _ _ _).mem_iff] at hb
    simp only [List.mem_map, List.mem_filter, decide_eq_true_eq] at hb
    obtain ⟨⟨v, b⟩, ⟨h₁, rfl⟩, rfl⟩ := hb
    exact h₁
  · intro h
    have hv : v ∈ extendSet [] (rules.map Prod.fst) := mem_collect.mpr (List.mem_map.mpr ⟨_, h, rfl⟩)
    obtain ⟨i, hi, hv'⟩ := List.mem_iff_getElem.mp hv
    refine ⟨_, ⟨(v, i), ?_, rfl, rfl⟩, ?_⟩
    · rw [List.mem_zipIdx_iff_getElem?]
      simp [hi, hv']
    · rw [(ord.perm _ _ _).mem_iff]
      simp only [List.mem_map, List.mem_filter, decide_eq_true_eq]
      exact ⟨_, ⟨h, rfl⟩, rfl⟩

/-! ## Parsers -/

theorem Prints.Maps.key {d : Prints V T} {style : Style} (hd : d.Maps style) : SelfEnding (keyText d style) := by
  intro a b x y h
  cases a <;> cases b
  case none.none => exact ⟨rfl, by simpa [keyText] using h⟩
  case none.some t => cases style <;> simp [keyText, debugTuple] at h
  case some.none t => cases style <;> simp [keyText, debugTuple] at h
  case some.some t t' =>
    cases style with
    | compact =>
      simp only [keyText, tuple_compact, List.append_assoc, List.append_cancel_left_eq, List.cons_append,
        List.cons.injEq, true_and, List.nil_append] at h
      obtain rfl := hd.reads rfl t t' x y h
      exact ⟨rfl, by simpa using h⟩
    | pretty =>
      obtain ⟨h₁, h₂⟩ := tuple_inj h
      exact ⟨congrArg _ (hd.told.2 _ _ h₁), h₂⟩

theorem Prints.Maps.action {d : Prints V T} {style : Style} (hd : d.Maps style) :
    SelfEnding (Action.debug d style (V := V) (T := T)) := by
  have two := fun name : Text => struct2_inj (style := style) (name := name) (field := "variable".toList)
    (field' := "amount".toList) (hd.var.mono (s' := [',']) (by simp)) (debugNat_delim.mono (s' := [',', ' ']) (by simp))
  have one := struct1_inj (style := style) (name := "Shift".toList) (field := "dest_state".toList)
    (debugNat_delim.mono (s' := [',', ' ']) (by simp))
  have head : ∀ (c : Char) (name : Text) (fields : List (Text × Text)), ∃ r, debugStruct style (c :: name) fields = c :: r := by
    intro c name fields
    cases fields with
    | nil => exact ⟨_, rfl⟩
    | cons f fields => cases style <;> exact ⟨_, rfl⟩
  intro a b x y h
  cases a <;> cases b
  case shift.shift n m =>
    obtain ⟨rfl, h₁⟩ := one n m x y h
    exact ⟨rfl, h₁⟩
  case reduce.reduce v n v' n' =>
    obtain ⟨h₁, h₂⟩ := two "Reduce".toList (v, n) (v', n') x y h
    cases h₁
    exact ⟨rfl, h₂⟩
  case accept.accept v n v' n' =>
    obtain ⟨h₁, h₂⟩ := two "Accept".toList (v, n) (v', n') x y h
    cases h₁
    exact ⟨rfl, h₂⟩
  all_goals
    exfalso
    simp only [Action.debug] at h
    have hc : ∀ {c c' : Char} {n n' : Text} {f f' : List (Text × Text)}, c ≠ c' →
        debugStruct style (c :: n) f ++ x ≠ debugStruct style (c' :: n') f' ++ y := by
      intro c c' n n' f f' hne e
      obtain ⟨r, e₁⟩ := head c n f
      obtain ⟨r', e₂⟩ := head c' n' f'
      rw [e₁, e₂] at e
      simp [hne] at e
    exact hc (by decide) h

theorem Prints.Maps.actionRow {d : Prints V T} {style : Style} (hd : d.Maps style) :
    SelfEnding (actionRowText d style) := by
  have := seq_inj (o := '{') (c := '}') (style := style) (by decide)
    (entry_delim (stops := [',', '}']) (hd.key.delim _) (hd.action.delim _)) (fun e => by
      rcases e with ⟨_ | t, _⟩
      · exact ⟨_, _, rfl, by decide⟩
      · cases style <;> exact ⟨_, _, rfl, by decide⟩)
  intro a b x y h
  refine this a b x y ?_
  simpa only [actionRowText, debugMap, debugSet_seq, List.map_map, Function.comp_def] using h

theorem Prints.Maps.gotoRow {d : Prints V T} {style : Style} (hd : d.Maps style) :
    SelfEnding (gotoRowText d style) := by
  have := seq_inj (o := '{') (c := '}') (style := style) (by decide)
    (entry_delim (stops := [',', '}']) (hd.var.mono (by simp)) (debugNat_delim.mono (by simp)))
    (fun e => hd.entry_head e.1 _)
  intro a b x y h
  refine this a b x y ?_
  simpa only [gotoRowText, debugMap, debugSet_seq, List.map_map, Function.comp_def] using h

theorem rows_selfEnding {style : Style} {f : List (α × β) → Text} {g : α × β → Text × Text}
    (hg : ∀ r, f r = debugMap style (r.map g)) (hf : SelfEnding f) :
    SelfEnding fun rows : List (List (α × β)) => debugList style (rows.map f) := by
  simp only [debugList_seq]
  refine seq_inj (by decide) (hf.delim _) fun r => ?_
  rw [hg, debugMap, debugSet_seq]
  cases r with
  | nil => exact ⟨_, _, rfl, by decide⟩
  | cons e r => cases style <;> exact ⟨_, _, rfl, by decide⟩

theorem parserText_inj {d : Prints V T} {style : Style} (hd : d.Maps style) {ord ord' : HashOrder} {t t' : Table V T}
    (h : parserText d style ord t = parserText d style ord' t') :
    rowsInOrder ord 0 t.action = rowsInOrder ord' 0 t'.action ∧ rowsInOrder ord 1 t.goto = rowsInOrder ord' 1 t'.goto := by
  have h₁ := rows_selfEnding (fun r => rfl) hd.actionRow
  have h₂ := rows_selfEnding (fun r => rfl) hd.gotoRow
  have h₃ := struct2_inj (style := style) (name := "ParseTable".toList) (field := "action".toList)
    (field' := "goto".toList) (h₁.delim [',']) (h₂.delim [',', ' '])
  have := struct1_inj (style := style) (name := "Slr".toList) (field := "table".toList) (h₃.delim [',', ' '])
    (rowsInOrder ord 0 t.action, rowsInOrder ord 1 t.goto) (rowsInOrder ord' 0 t'.action, rowsInOrder ord' 1 t'.goto) [] []
    (by simp only [List.append_nil]; exact h)
  simpa using this.1

end Pango.Parse

import Verif.Lemmas.Print

/-!
# Lemmas: printed automata can be read
-/

namespace LearnTA
namespace Print

theorem all_mem {P : Fin 256 → Prop} [DecidablePred P] {l : Text} (h : (l.all fun b => decide (P b)) = true) : ∀ b ∈ l, P b := by
  intro b hb
  simpa using List.all_eq_true.1 h b hb

/-- A token ends at the first byte that is not in `P`. -/
theorem token {P : Fin 256 → Prop} {s s' : Text} {d d' : Fin 256} {r r' : Text} (hs : ∀ b ∈ s, P b) (hs' : ∀ b ∈ s', P b)
    (hd : ¬ P d) (hd' : ¬ P d') (h : s ++ d :: r = s' ++ d' :: r') : s = s' ∧ d = d' ∧ r = r' := by
  induction s generalizing s' with
  | nil =>
    rcases s' with _ | ⟨b, s'⟩
    · simpa using h
    · obtain ⟨rfl, -⟩ := List.cons.inj h
      exact absurd (hs' _ List.mem_cons_self) hd
  | cons a s ih =>
    rcases s' with _ | ⟨b, s'⟩
    · obtain ⟨rfl, -⟩ := List.cons.inj h
      exact absurd (hs _ List.mem_cons_self) hd'
    · obtain ⟨rfl, h'⟩ := List.cons.inj h
      obtain ⟨rfl, h1, h2⟩ := ih (fun b hb => hs b (List.mem_cons_of_mem _ hb)) (fun b hb => hs' b (List.mem_cons_of_mem _ hb)) h'
      exact ⟨rfl, h1, h2⟩

theorem nat_token {m n : ℕ} {d d' : Fin 256} {r r' : Text} (hd : ¬ IsDigit d) (hd' : ¬ IsDigit d')
    (h : nat m ++ d :: r = nat n ++ d' :: r') : m = n ∧ d = d' ∧ r = r' := by
  obtain ⟨h1, h2, h3⟩ := token (nat_digits m) (nat_digits n) hd hd' h
  exact ⟨nat_injective h1, h2, h3⟩

theorem order_injective : ∀ o o' : COrder, order o = order o' → o = o' := by
  intro o o' h
  cases o <;> cases o' <;> first | rfl | (revert h; decide)

theorem order_nospace : ∀ o : COrder, ∀ b ∈ order o, b ≠ byte ' ' := by
  intro o
  cases o <;> exact all_mem (by decide)

theorem constraint_injective {c c' : Constraint} (h : constraint c = constraint c') : c = c' := by
  obtain ⟨x, o, k⟩ := c
  obtain ⟨x', o', k'⟩ := c'
  simp only [constraint, str, List.map_cons, List.map_nil, List.append_assoc, List.cons_append, List.nil_append,
    List.cons.injEq, true_and] at h
  obtain ⟨rfl, -, h⟩ := nat_token (by decide) (by decide) h
  obtain ⟨h1, -, h⟩ := token (P := fun b => b ≠ byte ' ') (order_nospace o) (order_nospace o') (by simp) (by simp) h
  rw [order_injective _ _ h1, int_injective h]

/-- The bytes of a constraint or an update. -/
def ItemByte (b : Fin 256) : Prop := b ≠ byte ',' ∧ b ≠ byte '}'

instance (b : Fin 256) : Decidable (ItemByte b) := by unfold ItemByte; infer_instance

theorem IsDigit.item {b : Fin 256} (h : IsDigit b) : ItemByte b := by
  constructor <;> rintro rfl <;> revert h <;> decide

theorem int_item (n : ℤ) : ∀ b ∈ int n, ItemByte b := by
  intro b hb
  unfold int at hb
  split at hb
  · rcases List.mem_cons.1 hb with rfl | hb
    · decide
    · exact (nat_digits _ _ hb).item
  · exact (nat_digits _ _ hb).item

theorem order_item : ∀ o : COrder, ∀ b ∈ order o, ItemByte b := by
  intro o
  cases o <;> exact all_mem (by decide)

theorem constraint_item (c : Constraint) : ∀ b ∈ constraint c, ItemByte b := by
  intro b hb
  simp only [constraint, List.mem_append] at hb
  rcases hb with ((((hb | hb) | hb) | hb) | hb) | hb
  · exact all_mem (P := ItemByte) (l := str ['x']) (by decide) b hb
  · exact (nat_digits _ _ hb).item
  · exact all_mem (P := ItemByte) (l := str [' ']) (by decide) b hb
  · exact order_item _ b hb
  · exact all_mem (P := ItemByte) (l := str [' ']) (by decide) b hb
  · exact int_item _ b hb

theorem constraint_ne_nil (c : Constraint) : constraint c ≠ [] := by
  simp [constraint, str]

/-- An update whose constant has at most six significant digits. -/
def Short (p : ℕ × Upd) : Prop := ∀ q, p.2 = .const q → SixDigits q

theorem update_injective {p p' : ℕ × Upd} (hp : Short p) (hp' : Short p') (h : update p = update p') : p = p' := by
  obtain ⟨x, u⟩ := p
  obtain ⟨x', u'⟩ := p'
  simp only [update, str, List.map_cons, List.map_nil, List.append_assoc, List.cons_append, List.nil_append,
    List.cons.injEq, true_and] at h
  obtain ⟨rfl, -, h⟩ := nat_token (by decide) (by decide) h
  simp only [List.cons.injEq, true_and] at h
  have hx : ∀ (q : ℚ) (t : Text), byte 'x' :: t ≠ double q := by
    intro q t h
    obtain ⟨b, t', h1, h2⟩ := double_cons q
    rw [h1] at h
    obtain ⟨rfl, -⟩ := List.cons.inj h
    revert h2
    decide
  rcases u with q | y <;> rcases u' with q' | y'
  · rw [double_injective (hp q rfl) (hp' q' rfl) h]
  · exact absurd h.symm (hx q _)
  · exact absurd h (hx q' _)
  · rw [nat_injective (List.cons.inj h).2]

theorem update_item (p : ℕ × Upd) : ∀ b ∈ update p, ItemByte b := by
  obtain ⟨x, u⟩ := p
  intro b hb
  simp only [update, List.mem_append] at hb
  rcases hb with ((hb | hb) | hb) | hb
  · exact all_mem (P := ItemByte) (l := str ['x']) (by decide) b hb
  · exact (nat_digits _ _ hb).item
  · exact all_mem (P := ItemByte) (l := str [' ', ':', '=', ' ']) (by decide) b hb
  · rcases u with q | y
    · rcases double_chars q b hb with h | h | h | h | h
      · exact h.item
      all_goals rw [h]; decide
    · rcases List.mem_append.1 hb with hb | hb
      · exact all_mem (P := ItemByte) (l := str ['x']) (by decide) b hb
      · exact (nat_digits _ _ hb).item

theorem update_ne_nil (p : ℕ × Upd) : update p ≠ [] := by
  simp [update, str]

theorem commas_injective {α : Type} {f : α → Text} {S : α → Prop} (hf : ∀ a b, S a → S b → f a = f b → a = b)
    (hi : ∀ a, ∀ b ∈ f a, ItemByte b) (hn : ∀ a, f a ≠ []) {r r' : Text} : ∀ (l l' : List α), (∀ a ∈ l, S a) → (∀ a ∈ l', S a) →
    commas f l ++ byte '}' :: r = commas f l' ++ byte '}' :: r' → l = l' ∧ r = r' := by
  have hb : ¬ ItemByte (byte '}') := by decide
  have hc : ¬ ItemByte (byte ',') := by decide
  have hbc : byte '}' ≠ byte ',' := by decide
  -- a text that begins with an item does not begin with the brace
  have first : ∀ a (t : Text), byte '}' :: r ≠ f a ++ t ∧ byte '}' :: r' ≠ f a ++ t := by
    intro a t
    rcases h : f a with _ | ⟨b, s⟩
    · exact absurd h (hn a)
    · have := hi a b (by rw [h]; exact List.mem_cons_self)
      constructor <;> intro k <;> obtain ⟨rfl, -⟩ := List.cons.inj k <;> exact hb this
  intro l
  induction l with
  | nil =>
    intro l' _ _ h
    rcases l' with _ | ⟨a, _ | ⟨b, l'⟩⟩
    · exact ⟨rfl, (List.cons.inj h).2⟩
    · exact absurd h (first a _).1
    · simp only [commas, List.append_assoc] at h
      exact absurd h (first a _).1
  | cons a l ih =>
    intro l' hl hl' h
    have ha := hl a List.mem_cons_self
    rcases l' with _ | ⟨a', l'⟩
    · rcases l with _ | ⟨b, l⟩
      · exact absurd h.symm (first a _).2
      · simp only [commas, List.append_assoc] at h
        exact absurd h.symm (first a _).2
    have ha' := hl' a' List.mem_cons_self
    rcases l with _ | ⟨b, l⟩ <;> rcases l' with _ | ⟨b', l'⟩
    · obtain ⟨h1, -, h2⟩ := token (hi a) (hi a') hb hb h
      exact ⟨by rw [hf a a' ha ha' h1], h2⟩
    · simp only [commas, List.append_assoc, str, List.map_cons, List.map_nil, List.cons_append, List.nil_append] at h
      exact absurd (token (hi a) (hi a') hb hc h).2.1 hbc
    · simp only [commas, List.append_assoc, str, List.map_cons, List.map_nil, List.cons_append, List.nil_append] at h
      exact absurd (token (hi a) (hi a') hc hb h).2.1.symm hbc
    · simp only [commas, List.append_assoc, str, List.map_cons, List.map_nil, List.cons_append, List.nil_append] at h
      obtain ⟨h1, -, h2⟩ := token (hi a) (hi a') hc hc h
      obtain ⟨h3, h4⟩ := ih (b' :: l') (fun x hx => hl x (List.mem_cons_of_mem _ hx))
        (fun x hx => hl' x (List.mem_cons_of_mem _ hx)) (List.cons.inj h2).2
      exact ⟨by rw [hf a a' ha ha' h1, h3], h4⟩

theorem label_injective {a a' : Action} {r r' : Text} (h : label a ++ byte '"' :: r = label a' ++ byte '"' :: r') :
    a = a' ∧ r = r' := by
  have hq : Fin.ofNat 256 0xB5 ≠ byte '"' := by decide
  unfold label at h
  split at h <;> split at h
  · simpa using h
  · simp only [List.cons_append, List.nil_append, List.cons.injEq] at h
    exact absurd h.2.1.symm hq
  · simp only [List.cons_append, List.nil_append, List.cons.injEq] at h
    exact absurd h.2.1 hq
  · rename_i h1 h2
    simp only [List.cons_append, List.nil_append, List.cons.injEq, true_and] at h
    exact ⟨(not_not.1 h1).trans (not_not.1 h2).symm, h⟩

/-- The lines of a printed automaton. -/
inductive Line where
  | state (i : ℕ) (init isMatch : Bool)
  | edge (i j : ℕ) (a : Action) (g : Guard) (r : Resets)

/-- The text of a line. -/
def Line.text : Line → Text
  | .state i b c => stateLine i b c
  | .edge i j a g r => edgeLine i j a g r

/-- The constants in the line have at most six significant digits. -/
def Line.Ok : Line → Prop
  | .state _ _ _ => True
  | .edge _ _ _ _ r => ∀ p ∈ r, Short p

theorem bool_injective {b b' : Bool} {r r' : Text} (h : bool b ++ r = bool b' ++ r') : b = b' ∧ r = r' := by
  have h01 : byte '1' ≠ byte '0' := by decide
  cases b <;> cases b' <;> simp_all [bool]

/-- The guard of a transition in its line. -/
def guardPart (g : Guard) : Text :=
  if g.isEmpty then [] else str [',', ' ', 'g', 'u', 'a', 'r', 'd', '=', '"', '{'] ++ guard g ++ str ['}', '"']

/-- The updates of a transition in its line. -/
def resetPart (r : Resets) : Text :=
  if r.isEmpty then [] else str [',', ' ', 'r', 'e', 's', 'e', 't', '=', '"', '{'] ++ resets r ++ str ['}', '"']

theorem edgeLine_eq (i j : ℕ) (a : Action) (g : Guard) (r : Resets) : edgeLine i j a g r =
    str [' ', ' ', ' ', ' ', ' ', ' ', ' ', ' ', 'l', 'o', 'c'] ++ nat i ++ str ['-', '>', 'l', 'o', 'c'] ++ nat j ++
      str [' ', '[', 'l', 'a', 'b', 'e', 'l', '=', '"'] ++ label a ++ str ['"'] ++ guardPart g ++ resetPart r ++ str [']', '\n'] := rfl

theorem resetPart_cons (p : ℕ × Upd) (r : Resets) (t : Text) : resetPart (p :: r) ++ t =
    str [',', ' ', 'r', 'e', 's', 'e', 't', '=', '"', '{'] ++ (commas update (p :: r) ++ byte '}' :: (byte '"' :: t)) := by
  simp [resetPart, resets, str]

theorem guardPart_cons (c : Constraint) (g : Guard) (t : Text) : guardPart (c :: g) ++ t =
    str [',', ' ', 'g', 'u', 'a', 'r', 'd', '=', '"', '{'] ++ (commas constraint (c :: g) ++ byte '}' :: (byte '"' :: t)) := by
  simp [guardPart, guard, str]

theorem guardPart_injective {g g' : Guard} {r r' : Resets} {t t' : Text} (hr : ∀ p ∈ r, Short p) (hr' : ∀ p ∈ r', Short p)
    (h : guardPart g ++ (resetPart r ++ (str [']', '\n'] ++ t)) = guardPart g' ++ (resetPart r' ++ (str [']', '\n'] ++ t'))) :
    g = g' ∧ r = r' ∧ t = t' := by
  have n1 : byte ',' ≠ byte ']' := by decide
  have n2 : byte 'g' ≠ byte 'r' := by decide
  have inner : resetPart r ++ (str [']', '\n'] ++ t) = resetPart r' ++ (str [']', '\n'] ++ t') → r = r' ∧ t = t' := by
    intro h
    rcases r with _ | ⟨p, r⟩ <;> rcases r' with _ | ⟨p', r'⟩
    · exact ⟨rfl, by simpa [str, resetPart] using h⟩
    · rw [resetPart_cons] at h
      exact absurd (List.cons.inj h).1.symm n1
    · rw [resetPart_cons] at h
      exact absurd (List.cons.inj h).1 n1
    · rw [resetPart_cons, resetPart_cons] at h
      obtain ⟨h1, h2⟩ := commas_injective (S := Short) (fun a b => update_injective) update_item update_ne_nil _ _ hr hr'
        (List.append_cancel_left h)
      exact ⟨h1, List.append_cancel_left (List.cons.inj h2).2⟩
  have begins : ∀ (x : Resets) (y u : Text), resetPart x ++ (str [']', '\n'] ++ y) ≠
      str [',', ' ', 'g', 'u', 'a', 'r', 'd', '=', '"', '{'] ++ u := by
    intro x y u h
    rcases x with _ | ⟨p, x⟩
    · exact absurd (List.cons.inj h).1.symm n1
    · rw [resetPart_cons] at h
      exact absurd (List.cons.inj (List.cons.inj (List.cons.inj h).2).2).1.symm n2
  rcases g with _ | ⟨c, g⟩ <;> rcases g' with _ | ⟨c', g'⟩
  · exact ⟨rfl, inner h⟩
  · rw [guardPart_cons] at h
    exact absurd h (begins _ _ _)
  · rw [guardPart_cons] at h
    exact absurd h.symm (begins _ _ _)
  · rw [guardPart_cons, guardPart_cons] at h
    obtain ⟨h1, h2⟩ := commas_injective (S := fun _ => True) (fun a b _ _ => constraint_injective) constraint_item constraint_ne_nil
      _ _ (by simp) (by simp) (List.append_cancel_left h)
    exact ⟨h1, inner (List.cons.inj h2).2⟩

theorem line_injective {l l' : Line} (hl : l.Ok) (hl' : l'.Ok) {t t' : Text} (h : l.text ++ t = l'.text ++ t') :
    l = l' ∧ t = t' := by
  have nb : byte ' ' ≠ byte '-' := by decide
  rcases l with ⟨i, b, c⟩ | ⟨i, j, a, g, r⟩ <;> rcases l' with ⟨i', b', c'⟩ | ⟨i', j', a', g', r'⟩ <;>
    simp only [Line.text, stateLine, edgeLine_eq, List.append_assoc] at h <;> replace h := List.append_cancel_left h
  · obtain ⟨rfl, -, h⟩ := nat_token (by decide) (by decide) h
    have h2 := List.append_cancel_left (as := str ['[', 'i', 'n', 'i', 't', '=']) h
    obtain ⟨rfl, h3⟩ := bool_injective h2
    obtain ⟨rfl, h4⟩ := bool_injective (List.append_cancel_left h3)
    exact ⟨rfl, List.append_cancel_left h4⟩
  · exact absurd (nat_token (by decide) (by decide) h).2.1 nb
  · exact absurd (nat_token (by decide) (by decide) h).2.1.symm nb
  · obtain ⟨rfl, -, h⟩ := nat_token (by decide) (by decide) h
    have h2 := List.append_cancel_left (as := str ['>', 'l', 'o', 'c']) h
    obtain ⟨rfl, -, h3⟩ := nat_token (by decide) (by decide) h2
    have h4 := List.append_cancel_left (as := str ['[', 'l', 'a', 'b', 'e', 'l', '=', '"']) h3
    obtain ⟨rfl, h5⟩ := label_injective h4
    obtain ⟨rfl, rfl, rfl⟩ := guardPart_injective hl hl' h5
    exact ⟨rfl, rfl⟩

theorem Line.text_cons (l : Line) : ∃ t, l.text = byte ' ' :: t := by
  rcases l with ⟨i, b, c⟩ | ⟨i, j, a, g, r⟩ <;> exact ⟨_, rfl⟩

theorem lines_injective : ∀ l l' : List Line, (∀ x ∈ l, x.Ok) → (∀ x ∈ l', x.Ok) →
    l.flatMap Line.text ++ str ['}', '\n'] = l'.flatMap Line.text ++ str ['}', '\n'] → l = l' := by
  have nb : byte '}' ≠ byte ' ' := by decide
  intro l
  induction l with
  | nil =>
    intro l' _ _ h
    rcases l' with _ | ⟨x, l'⟩
    · rfl
    · obtain ⟨t, ht⟩ := x.text_cons
      simp [str, ht] at h
      exact absurd h.1 nb
  | cons x l ih =>
    intro l' hl hl' h
    rcases l' with _ | ⟨x', l'⟩
    · obtain ⟨t, ht⟩ := x.text_cons
      simp [str, ht] at h
      exact absurd h.1.symm nb
    · rw [List.flatMap_cons, List.flatMap_cons, List.append_assoc, List.append_assoc] at h
      obtain ⟨rfl, h2⟩ := line_injective (hl x List.mem_cons_self) (hl' x' List.mem_cons_self) h
      rw [ih l' (fun y hy => hl y (List.mem_cons_of_mem _ hy)) (fun y hy => hl' y (List.mem_cons_of_mem _ hy)) h2]

end Print
end LearnTA

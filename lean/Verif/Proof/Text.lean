import Verif.Model.Text

/-! Helper lemmas about text output. -/

namespace WB

theorem split_unique {P : Char → Bool} : ∀ {u v : Text} {c d : Char} {r s : Text}, (∀ x ∈ u, P x = true) → (∀ x ∈ v, P x = true) →
    P c = false → P d = false → u ++ c :: r = v ++ d :: s → u = v ∧ c :: r = d :: s
  | [], [], _, _, _, _, _, _, _, _, h => ⟨rfl, h⟩
  | [], y :: v, _, _, _, _, _, hv, hc, _, h => by
    simp only [List.nil_append, List.cons_append, List.cons.injEq] at h
    rw [h.1, hv y (by simp)] at hc; cases hc
  | x :: u, [], _, _, _, _, hu, _, _, hd, h => by
    simp only [List.nil_append, List.cons_append, List.cons.injEq] at h
    rw [← h.1, hu x (by simp)] at hd; cases hd
  | x :: u, y :: v, _, _, _, _, hu, hv, hc, hd, h => by
    simp only [List.cons_append, List.cons.injEq] at h
    obtain ⟨h1, h2⟩ := split_unique (fun z hz => hu z (by simp [hz])) (fun z hz => hv z (by simp [hz])) hc hd h.2
    exact ⟨by rw [h.1, h1], h2⟩

theorem decimal_digit {n : ℕ} {c : Char} (h : c ∈ decimal n) : c.isDigit = true :=
  Nat.isDigit_of_mem_toDigits (by decide) (by decide) h

theorem decimal_inj {n m : ℕ} (h : decimal n = decimal m) : n = m := by
  rw [← Nat.ofDigitChars_ten_toDigits (n := n), ← Nat.ofDigitChars_ten_toDigits (n := m)]
  exact congrArg (fun l => Nat.ofDigitChars 10 l 0) h

theorem decimal_ne_nil (n : ℕ) : decimal n ≠ [] := Nat.toDigits_ne_nil

theorem sides_chars : ∀ {l : List ℕ} {c : Char}, c ∈ sides l → (c.isDigit || c == 'x') = true
  | [], c, h => by simp [sides] at h
  | [n], c, h => by simp [decimal_digit h]
  | n :: m :: l, c, h => by
    simp only [sides, List.mem_append, List.mem_cons] at h
    rcases h with h | rfl | h
    · simp [decimal_digit h]
    · rfl
    · exact sides_chars h

theorem sides_ne_nil : ∀ {n : ℕ} {l : List ℕ}, sides (n :: l) ≠ []
  | n, [] => decimal_ne_nil n
  | n, m :: l => by simp [sides]

theorem sides_inj : ∀ {l l' : List ℕ}, sides l = sides l' → l = l'
  | [], [], _ => rfl
  | [], n :: l, h => absurd h.symm sides_ne_nil
  | n :: l, [], h => absurd h sides_ne_nil
  | [n], [m], h => by rw [decimal_inj h]
  | [n], m :: m' :: l, h => by
    have : 'x' ∈ decimal n := by
      show 'x' ∈ sides [n]
      rw [h]; simp [sides]
    exact absurd (decimal_digit this) (by decide)
  | n :: n' :: l, [m], h => by
    have : 'x' ∈ decimal m := by
      show 'x' ∈ sides [m]
      rw [← h]; simp [sides]
    exact absurd (decimal_digit this) (by decide)
  | n :: n' :: l, m :: m' :: l', h => by
    obtain ⟨h1, h2⟩ := split_unique (P := Char.isDigit) (fun _ => decimal_digit) (fun _ => decimal_digit) (by decide) (by decide) h
    rw [decimal_inj h1, sides_inj (List.cons.inj h2).2]

theorem wtypeName_inj {a b : ℕ} (ha : a ≤ 5) (hb : b ≤ 5) (h : wtypeName a = wtypeName b) : a = b := by
  have : ∀ a : Fin 6, ∀ b : Fin 6, wtypeName a.val = wtypeName b.val → a = b := by decide +kernel
  have := this ⟨a, by omega⟩ ⟨b, by omega⟩ h
  simpa using this

theorem reprParams_inj {cls : Text} {p q : Params} (h : reprParams cls p = reprParams cls q) :
    p.signalNumber = q.signalNumber ∧ p.shape = q.shape ∧ p.steps = q.steps ∧ wtypeName p.wtype = wtypeName q.wtype := by
  unfold reprParams at h
  simp only [List.append_assoc, List.cons_append, List.append_cancel_left_eq, List.cons.injEq, true_and] at h
  have e1 : ", signal_shape=(".toList = ',' :: " signal_shape=(".toList := rfl
  have e2 : "), decomposition_steps=".toList = ')' :: ", decomposition_steps=".toList := rfl
  have e3 : ", wavelet_type=".toList = ',' :: " wavelet_type=".toList := rfl
  rw [e1, e2, e3] at h
  simp only [List.cons_append] at h
  obtain ⟨h1, h⟩ := split_unique (P := Char.isDigit) (fun _ => decimal_digit) (fun _ => decimal_digit) (by decide) (by decide) h
  simp only [List.cons.injEq, true_and, List.append_cancel_left_eq] at h
  obtain ⟨h2, h⟩ := split_unique (P := fun c => c.isDigit || c == 'x') (fun _ => sides_chars) (fun _ => sides_chars) (by decide) (by decide) h
  simp only [List.cons.injEq, true_and, List.append_cancel_left_eq] at h
  obtain ⟨h3, h⟩ := split_unique (P := Char.isDigit) (fun _ => decimal_digit) (fun _ => decimal_digit) (by decide) (by decide) h
  simp only [List.cons.injEq, true_and, List.append_cancel_left_eq, List.append_cancel_right_eq] at h
  exact ⟨decimal_inj h1, sides_inj h2, decimal_inj h3, h⟩

theorem arrives_append (s : Stream) (a b : List (Stream × Text)) : arrives s (a ++ b) = arrives s a ++ arrives s b := by
  simp [arrives]

theorem arrives_given {α : Type} (g : α → Text) (l : List α) (s : Stream) :
    arrives s (l.map fun m => (Stream.given, g m)) = if s = .given then l.flatMap g else [] := by
  induction l with
  | nil => simp [arrives]
  | cons a l ih =>
    rw [List.map_cons, ← List.singleton_append, arrives_append, ih]
    cases s <;> simp [arrives]

end WB

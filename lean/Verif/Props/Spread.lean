import Verif.Proof.Spread
import Verif.Props.Mantissa
import Verif.Props.FloatBits

/-!
C134: infinities and NaN in the samples are not hidden.
-/

namespace WB.Props

open Spec

section
variable {α : Type} [Zero α] [Add α] [Mul α] [Neg α] [Inhabited α]

theorem out_bad {k : Kit α} {bad : α → Prop} {p : Params} (hb : Contagious k bad) (hv : ValidParams p) (hk : FilterPresent k p) {s : ℕ} (hs : s ≤ p.steps)
    {c : Channel α} (hc : SizedChan p c) {a b : ℕ} (h : bad ((c.getD (p.steps * subbandsPerWT p) default).get (a / 2 ^ p.steps) (b / 2 ^ p.steps))) {i j : ℕ}
    (hi : i < (outP k p s c).rows) (hj : j < (outP k p s c).cols) (ea : i + ((levelSides p s).1 - (outP k p s c).rows) / 2 = a / 2 ^ s)
    (eb : j + ((levelSides p s).2 - (outP k p s c).cols) / 2 = b / 2 ^ s) : bad ((outP k p s c).get i j) := by
  have e : p.steps - (p.steps - s) = s := by omega
  have f := fits_recon (h := scaling k p) hv hc (show p.steps - s ≤ p.steps by omega)
  have g := recon_bad (k := k) hb hv hk hc h (n := p.steps - s) (by omega)
  rw [e] at f g
  refine finish_bad hb hv hs f hi hj ?_
  unfold outP at ea eb
  rw [ea, eb]
  exact g

theorem chan_bad {k : Kit α} {bad : α → Prop} {p : Params} (hb : Contagious k bad) (hv : ValidParams p) (hk : FilterPresent k p) (den : Denoiser α) {x : Mat α}
    (hx : Shaped p x) {i j : ℕ} (hi : i < x.rows) (hj : j < x.cols) (h : bad (x.get i j)) : ∃ m, m = (chanP p (scaling k p) den x).getD (p.steps * subbandsPerWT p) default ∧
      bad (m.get ((i + ((levelSides p 0).1 - x.rows) / 2) / 2 ^ p.steps) ((j + ((levelSides p 0).2 - x.cols) / 2) / 2 ^ p.steps)) ∧
      (i + ((levelSides p 0).1 - x.rows) / 2) / 2 ^ p.steps < m.rows ∧ (j + ((levelSides p 0).2 - x.cols) / 2) / 2 ^ p.steps < m.cols := by
  obtain ⟨k1, k2, k3⟩ := pad_bad hv hx hi hj h
  refine ⟨_, rfl, ?_⟩
  rw [chanP_last]
  exact sig_bad hb hv hk (fits_padOf hv hx) k2 k3 k1 le_rfl

/-- C134. In any arithmetic where bad values (such as NaN) infect sums, products and quotients: a bad sample is bad after decomposition and composition, at every
scale, whatever the denoiser does to the details. -/
theorem C134_round_trip (k : Kit α) (bad : α → Prop) (hbad : Contagious k bad) (b : Buffer α) (hb : WellFormed b) (hk : FilterPresent k b.params)
    (hch : 0 < b.params.signalNumber) (den : Denoiser α) (hden : KeepsSizes den) (data : List (Mat α)) (hd : IsSignal b.params data) (s : ℕ) (hs : s ≤ b.params.steps) :
    ∃ d out, b.decompose k data den = .ok d true ∧ (Buffer.mk b.params d).compose k s = .ok out ∧ ShowsThrough bad b.params s data out := by
  have hv := hb.1
  have sh : ∀ m ∈ data, Shaped b.params m := fun m hm => shaped_of (hd.2 m hm)
  refine ⟨_, _, decompose_ok hb hk hch hd (fun _ => hden), compose_ok (b := ⟨b.params, data.map (chanP b.params (scaling k b.params) den)⟩) hv (by simpa using hd.1) hk (by
      intro c hc
      obtain ⟨m, hm, rfl⟩ := List.mem_map.1 hc
      exact chanP_sized hv hden (sh m hm)) hs, by simp, ?_⟩
  intro n x y hx hy i hi j hj h i' hi' j' hj' e1 e2
  simp only [List.getElem?_map, hx, Option.map_some, Option.some.injEq] at hy
  subst hy
  have sx := sh x (List.mem_of_getElem? hx)
  obtain ⟨k1, k2, k3⟩ := pad_bad hv sx hi hj h
  have g := (sig_bad hbad hv hk (fits_padOf hv sx) k2 k3 k1 le_rfl).1
  rw [← chanP_last b.params (scaling k b.params) den x default] at g
  exact out_bad hbad hv hk hs (chanP_sized hv hden sx) g hi' hj' e1 e2

/-- C134. At full scale the bad sample is found where it was. -/
theorem C134_same_place (k : Kit α) (bad : α → Prop) (hbad : Contagious k bad) (b : Buffer α) (hb : WellFormed b) (hk : FilterPresent k b.params)
    (hch : 0 < b.params.signalNumber) (den : Denoiser α) (hden : KeepsSizes den) (data : List (Mat α)) (hd : IsSignal b.params data) :
    ∃ d out, b.decompose k data den = .ok d true ∧ (Buffer.mk b.params d).compose k 0 = .ok out ∧ out.length = data.length ∧
      ∀ (n : ℕ) (x y : Mat α), data[n]? = some x → out[n]? = some y → y.rows = x.rows ∧ y.cols = x.cols ∧
        ∀ i < x.rows, ∀ j < x.cols, bad (x.get i j) → bad (y.get i j) := by
  have hv := hb.1
  obtain ⟨d, out, h1, h2, h3, h4⟩ := C134_round_trip k bad hbad b hb hk hch den hden data hd 0 (Nat.zero_le _)
  refine ⟨d, out, h1, h2, h3, fun n x y hx hy => ?_⟩
  have size : y.rows = x.rows ∧ y.cols = x.cols := by
    have sh := shaped_of (hd.2 x (List.mem_of_getElem? hx))
    rw [decompose_ok hb hk hch hd (fun _ => hden)] at h1
    injection h1 with h1
    subst h1
    rw [compose_ok (b := ⟨b.params, data.map (chanP b.params (scaling k b.params) den)⟩) hv (by simpa using hd.1) hk (by
      intro c hc
      obtain ⟨m, hm, rfl⟩ := List.mem_map.1 hc
      exact chanP_sized hv hden (shaped_of (hd.2 m hm))) (Nat.zero_le _)] at h2
    injection h2 with h2
    subst h2
    simp only [List.getElem?_map, hx, Option.map_some, Option.some.injEq] at hy
    subst hy
    have f := fits_recon (h := scaling k b.params) hv (chanP_sized (k := k) (den := den) hv hden sh) (show b.params.steps ≤ b.params.steps from le_rfl)
    rw [Nat.sub_self] at f
    obtain ⟨r1, r2⟩ := finishP_size (k := k) hv (Nat.zero_le _) f
    have es : b.params.shape.map (· / 2 ^ 0) = b.params.shape := by simp
    rw [es] at r1 r2
    exact ⟨r1.trans sh.1.symm, r2.trans sh.2.symm⟩
  refine ⟨size.1, size.2, fun i hi j hj h => h4 n x y hx hy i hi j hj h i (by omega) j (by omega) ?_ ?_⟩
  · rw [size.1, pow_zero, Nat.div_one]
  · rw [size.2, pow_zero, Nat.div_one]

end

theorem spread_bits {r : Rounding} {o : FloatOps} (ho : SpreadsTrouble o) : Contagious (α := Bits o) (bitsKit r o) NotFinite :=
  ⟨fun x y h => ho.add x y h, fun x y h => ho.mul x y h, fun t s x h => ho.div t s x h⟩

theorem trunc_trouble {p : ℕ} (hp : 9 ≤ p) {x y : F32} (h : NotFinite x) (hy : SameExceptZeroSign y (truncBits p x)) : NotFinite y := by
  have e : expBits (truncBits p x) = expBits x := by
    unfold expBits
    rw [truncBits_toNat]
    congr 1
    have : (2 : ℕ) ^ 23 = 2 ^ (32 - p) * 2 ^ (23 - (32 - p)) := by rw [← pow_add]; congr 1; omega
    rw [this, ← Nat.div_div_eq_div_mul, ← Nat.div_div_eq_div_mul, Nat.mul_div_cancel _ (by positivity)]
  have h' : NotFinite (truncBits p x) := by
    unfold NotFinite finiteBits at h ⊢
    rwa [e]
  rcases hy with rfl | ⟨_, hz⟩
  · exact h'
  · exfalso
    apply h'
    unfold finiteBits
    simp only [isZeroPattern, Bool.or_eq_true, beq_iff_eq] at hz
    rcases hz with hz | hz <;> rw [hz] <;> decide

/-- C134. Infinities and NaN show through an archive as well, up to compression level 24. -/
theorem C134_archive_partial (r : Rounding) (o : FloatOps) (ho : SpreadsTrouble o) (b : Buffer F32) (hb : WellFormed b) (hw : b.params.wtype ≤ 5)
    (hch : 0 < b.params.signalNumber) (den : Denoiser F32) (hden : KeepsSizes (α := Bits o) den) (data : List (Mat F32)) (hd : IsSignal b.params data) :
    ∃ d : Decs F32, Buffer.decompose (α := Bits o) (bitsKit r o) b data den = .ok d true ∧
      ∀ (e : Ext) (Mem level : ℕ) (b1 : Buffer F32), CodecsWork e truncBits → Room e Mem → level ≤ 24 → FitsFormat ⟨b.params, d⟩ → Compressible ⟨b.params, d⟩ →
        FitsMemory ⟨b.params, d⟩ Mem → Generations e Mem [level] ⟨b.params, d⟩ b1 → ∀ s ≤ b.params.steps, ∃ out : List (Mat F32),
          Buffer.compose (α := Bits o) (bitsKit r o) b1 s = .ok out ∧ ShowsThrough NotFinite b.params s data out := by
  have hv := hb.1
  have hkF := bitsKit_present (r := r) (o := o) (p := b.params) (by omega)
  have c1 := decompose_ok (α := Bits o) (den := den) hb hkF hch hd (fun _ => hden)
  set p := b.params with hp
  obtain ⟨F, hF⟩ : ∃ F : Mat F32 → Channel F32, ∀ x, F x = chanP (α := Bits o) p (scaling (bitsKit r o) p) den x := ⟨_, fun _ => rfl⟩
  have c1 : Buffer.decompose (α := Bits o) (bitsKit r o) b data den = .ok (data.map F) true := by
    rw [show F = _ from funext hF]
    exact c1
  have sz : ∀ x ∈ data, SizedChan p (F x) := by
    intro x hx
    rw [hF]
    exact chanP_sized (α := Bits o) hv hden (shaped_of (hd.2 x hx))
  refine ⟨data.map F, c1, fun e Mem level b1 hcod hroom h24 k1 k2 k3 hg s hs => ?_⟩
  have hbD : WellFormed (Buffer.mk p (data.map F)) := by
    refine ⟨hv, by rw [List.length_map]; exact hd.1, fun c hc => ?_⟩
    obtain ⟨x, hx, rfl⟩ := List.mem_map.1 hc
    rw [(sz x hx).1]
    rfl
  have cut := generation_cut hcod hroom hbD k1 k2 k3 hg
  obtain ⟨p1, d1⟩ := b1
  obtain ⟨rfl, cut⟩ := cut
  have cut : List.Forall₂ _ (data.map F) d1 := cut
  have hl : d1.length = data.length := by rw [← cut.length_eq, List.length_map]
  obtain ⟨G, hG⟩ : ∃ G : Channel F32 → Mat F32, ∀ c, G c = outP (α := Bits o) (bitsKit r o) p s c := ⟨_, fun _ => rfl⟩
  have z1 : ∀ c' ∈ d1, SizedChan p c' := by
    intro c' hc'
    obtain ⟨n, hn, rfl⟩ := List.mem_iff_getElem.1 hc'
    have g := cut.get (by rw [List.length_map]; omega) hn
    refine (sized_iff hv _).2 (prescribed_congr (g.imp fun _ _ g => ⟨g.1, g.2.1⟩) ((sized_iff hv _).1 ?_))
    simp only [List.get_eq_getElem, List.getElem_map]
    exact sz _ (List.getElem_mem _)
  have c2 : Buffer.compose (α := Bits o) (bitsKit r o) ⟨p, d1⟩ s = .ok (d1.map G) := by
    rw [show G = _ from funext hG]
    exact compose_ok (α := Bits o) (b := ⟨p, d1⟩) hv (by show d1.length = _; rw [hl]; exact hd.1) hkF z1 hs
  refine ⟨d1.map G, c2, by rw [List.length_map, hl], ?_⟩
  intro n x y hx hy i hi j hj h i' hi' j' hj' e1 e2
  have sx := shaped_of (hd.2 x (List.mem_of_getElem? hx))
  have szx := sz x (List.mem_of_getElem? hx)
  rw [List.getElem?_map, Option.map_eq_some_iff] at hy
  obtain ⟨c, hc, rfl⟩ := hy
  obtain ⟨m, hm, g, g1, g2⟩ := chan_bad (α := Bits o) (spread_bits (r := r) ho) hv hkF den sx hi hj h
  have hm : m = (F x).getD (p.steps * subbandsPerWT p) default := by rw [hF]; exact hm
  subst hm
  obtain ⟨a, ha⟩ : ∃ a, a = i + ((levelSides p 0).1 - x.rows) / 2 := ⟨_, rfl⟩
  obtain ⟨b', hb'⟩ : ∃ a, a = j + ((levelSides p 0).2 - x.cols) / 2 := ⟨_, rfl⟩
  have g : NotFinite (((F x).getD (p.steps * subbandsPerWT p) default).get (a / 2 ^ p.steps) (b' / 2 ^ p.steps)) := by rw [ha, hb']; exact g
  have g1 : a / 2 ^ p.steps < ((F x).getD (p.steps * subbandsPerWT p) default).rows := by rw [ha]; exact g1
  have g2 : b' / 2 ^ p.steps < ((F x).getD (p.steps * subbandsPerWT p) default).cols := by rw [hb']; exact g2
  have rel : List.Forall₂ (fun m m' : Mat F32 => m'.rows = m.rows ∧ m'.cols = m.cols ∧
      ∀ i < m.rows, ∀ j < m.cols, SameExceptZeroSign (m'.get i j) (truncBits (33 - min 31 level) (m.get i j))) (F x) c := by
    obtain ⟨hn, rfl⟩ := List.getElem?_eq_some_iff.1 hc
    obtain ⟨hn', rfl⟩ := List.getElem?_eq_some_iff.1 hx
    have := cut.get (i := n) (by rw [List.length_map]; omega) hn
    simpa only [List.get_eq_getElem, List.getElem_map] using this
  have hsz := z1 c (List.mem_of_getElem? hc)
  have last : NotFinite ((c.getD (p.steps * subbandsPerWT p) default).get (a / 2 ^ p.steps) (b' / 2 ^ p.steps)) := by
    have i1 : p.steps * subbandsPerWT p < (F x).length := by rw [szx.1]; exact Nat.lt_succ_self _
    have i2 : p.steps * subbandsPerWT p < c.length := by rw [hsz.1]; exact Nat.lt_succ_self _
    have q := rel.get i1 i2
    rw [List.getD_eq_getElem _ _ i1] at g g1 g2
    rw [List.getD_eq_getElem _ _ i2]
    exact trunc_trouble (by omega) g (q.2.2 _ g1 _ g2)
  rw [hG] at hi' hj' e1 e2 ⊢
  exact out_bad (α := Bits o) (spread_bits (r := r) ho) hv hkF hs hsz last hi' hj' (e1.trans (by rw [ha]; rfl)) (e2.trans (by rw [hb']; rfl))

/-- C134. From level 25 on the exponent is cut: an infinite sample comes back as an ordinary number. -/
theorem C134_level_counterexample (e : Ext) (hw : CodecsWork e truncBits) (hM : ∀ M, Room e M) (level : ℕ) (h25 : 25 ≤ level) :
    ∃ (Mem : ℕ) (x y : F32), FitsMemory (oneSample x) Mem ∧ NotFinite x ∧ finiteBits y ∧ ∃ b1, Generations e Mem [level] (oneSample x) b1 ∧
      b1.decs = (oneSample y).decs := by
  obtain ⟨k1, k2, k3⟩ := oneSample_ok 0x7f800000#32
  obtain ⟨Mem, b1, hm, g⟩ := generations_exist e hw hM [level] (oneSample 0x7f800000#32) k1 k2 k3
  have cut := generation_cut hw (hM Mem) k1 k2 k3 hm g
  have cells : Cellwise (fun x y => SameExceptZeroSign y (truncBits (33 - min 31 level) x)) (oneSample 0x7f800000#32) b1 := cut
  obtain ⟨y, hy, hb⟩ := oneSample_cells cells
  refine ⟨Mem, 0x7f800000#32, y, hm, by unfold NotFinite finiteBits; decide, ?_, b1, g, hb⟩
  have key : ∀ p, 2 ≤ p → p ≤ 8 → finiteBits (truncBits p 0x7f800000#32) := by
    intro p h1 h2
    unfold finiteBits
    interval_cases p <;> decide
  rcases hy with rfl | ⟨hz, _⟩
  · exact key _ (by omega) (by omega)
  · simp only [isZeroPattern, Bool.or_eq_true, beq_iff_eq] at hz
    unfold finiteBits
    rcases hz with hz | hz <;> rw [hz] <;> decide

/-- The hypotheses of C134 can be met: correct operations may do anything with infinities and NaN, so they can be made to spread them. -/
example (r : Rounding) (o : FloatOps) (ho : o.Correct r) (f : ℕ → ℕ → F32) (den : Denoiser F32) (hden : KeepsSizes (α := F32) den) :
    ∃ o' : FloatOps, o'.Correct r ∧ SpreadsTrouble o' ∧ ∃ d out, Buffer.decompose (α := Bits o') (bitsKit r o') ⟨⟨[1000, 800], 1, 5, 3⟩, [List.replicate 16 Mat.empty]⟩
      [Mat.ofFn 800 1000 fun i j => if i = 7 ∧ j = 999 then 0x7fc00000#32 else f i j] den = .ok d true ∧
      Buffer.compose (α := Bits o') (bitsKit r o') ⟨⟨[1000, 800], 1, 5, 3⟩, d⟩ 0 = .ok out ∧ ∀ y : Mat F32, out[0]? = some y → NotFinite (y.get 7 999) := by
  classical
  let o' : FloatOps := { o with
    add := fun x y => if finiteBits x ∧ finiteBits y then o.add x y else 0x7fc00000#32
    mul := fun x y => if finiteBits x ∧ finiteBits y then o.mul x y else 0x7fc00000#32
    div := fun t s x => if finiteBits x then o.div t s x else x }
  have nan : NotFinite 0x7fc00000#32 := by unfold NotFinite finiteBits; decide
  have hs : SpreadsTrouble o' := by
    refine ⟨fun x y h => ?_, fun x y h => ?_, fun t s x h => ?_⟩
    · show NotFinite (if _ then _ else _)
      rw [if_neg (by unfold NotFinite at h; tauto)]
      exact nan
    · show NotFinite (if _ then _ else _)
      rw [if_neg (by unfold NotFinite at h; tauto)]
      exact nan
    · show NotFinite (if _ then _ else _)
      rw [if_neg h]
      exact h
  have ho' : o'.Correct r := by
    refine ⟨fun x y hx hy h => ?_, fun x y hx hy h => ?_, ho.neg, ho.store, fun t s x hx => ?_⟩
    · have e : o'.add x y = o.add x y := if_pos ⟨hx, hy⟩
      rw [e]
      exact ho.add x y hx hy h
    · have e : o'.mul x y = o.mul x y := if_pos ⟨hx, hy⟩
      rw [e]
      exact ho.mul x y hx hy h
    · have e : o'.div t s x = o.div t s x := if_pos hx
      rw [e]
      exact ho.div t s x hx
  refine ⟨o', ho', hs, ?_⟩
  obtain ⟨d, out, k1, k2, k3, k4⟩ := C134_same_place (α := Bits o') (bitsKit r o') NotFinite (spread_bits hs)
    ⟨⟨[1000, 800], 1, 5, 3⟩, [List.replicate 16 Mat.empty]⟩ ⟨⟨by simp, by simp, by simp⟩, by simp, by simp [subbandCount, detailsPerStep]⟩
    (bitsKit_present (by norm_num)) (by norm_num) den hden [Mat.ofFn 800 1000 fun i j => if i = 7 ∧ j = 999 then 0x7fc00000#32 else f i j] ⟨rfl, by simp [HasShape]⟩
  refine ⟨d, out, k1, k2, fun y hy => ?_⟩
  have := (k4 0 _ y rfl hy).2.2 7 (by simp) 999 (by simp)
  rw [Mat.get_ofFn (by norm_num) (by norm_num)] at this
  exact this nan

end WB.Props

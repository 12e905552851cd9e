import Verif.Proof.PythonImage
import Verif.Props.PythonBuffer
import Verif.Props.Metrics
import Verif.Props.Image

/-! Properties C53 and C81 to C84: energies, codecs and images in Python. -/

namespace WB.Props

open WB WB.Spec

section Energy

/-- C81 is false for every empty buffer: `energy_distribution` reads the first element of an empty vector. -/
theorem C81_empty_counterexample (bits : ℝ → F32) (b : Buffer ℝ) (h : b.isEmpty = true) : Py.energyDistribution bits b = .ub := by
  unfold Py.energyDistribution
  rw [(C38_energy_distribution b).1 h]
  simp only [List.map_nil]
  split_ifs <;> rfl

/-- C81: in particular for every new buffer, whatever its parameters. -/
theorem C81_new_counterexample (bits : ℝ → F32) (p : Params) (b : Buffer ℝ) (h : ctor p = .ok b) : Py.energyDistribution bits b = .ub := by
  refine C81_empty_counterexample bits b ?_
  have : ∀ x y, ∀ c ∈ List.replicate x (List.replicate y (Mat.empty : Mat ℝ)), ∀ m ∈ c, (m.rows * m.cols == 0) = true := by
    intro x y c hc m hm
    rw [(List.mem_replicate.1 hc).2] at hm
    rw [(List.mem_replicate.1 hm).2]
    rfl
  unfold ctor at h
  split_ifs at h <;>
    (cases h; simp only [Buffer.isEmpty, List.all_eq_true]; exact this _ _)

/-- There are new buffers. -/
example : ∃ b : Buffer ℝ, ctor ⟨[8, 8], 1, 1, 1⟩ = .ok b := ⟨_, rfl⟩

/-- C81, part that holds: the array for a non-empty buffer has the energy of every subband (of the only channel of a one-dimensional signal) at its
place. Missing: empty buffers (`C81_empty_counterexample`) and further channels of one-dimensional signals
(`C81_channels_lost_counterexample`). -/
theorem C81_energies_partial (bits : ℝ → F32) (b : Buffer ℝ) (hb : WellFormed b) (hne : b.isEmpty = false) (h1 : b.params.signalNumber < 2 ^ 31)
    (h2 : subbandCount b.params < 2 ^ 31) :
    (∀ w h, b.params.shape = [w, h] → ∃ a, Py.energyDistribution bits b = .ok a ∧ a.shape = [b.params.signalNumber, subbandCount b.params] ∧
      ∀ ch c i m, b.decs[ch]? = some c → c[i]? = some m → HasElement a [ch, i] (bits (energy m))) ∧
    ∀ n, b.params.shape = [n] → ∃ a, Py.energyDistribution bits b = .ok a ∧ a.shape = [subbandCount b.params] ∧
      ∀ c i m, b.decs[0]? = some c → c[i]? = some m → HasElement a [i] (bits (energy m)) := by
  obtain ⟨-, hlen, hcnt⟩ := hb
  have e : energyDistribution b = b.decs.map (fun c => c.map energy) := by
    unfold energyDistribution
    rw [if_neg (by simp [hne])]
    simp only [energy_entry]
  have hdne : b.decs ≠ [] := by
    intro h
    rw [Buffer.isEmpty, h] at hne
    cases hne
  have hdist : (energyDistribution b).map (List.map bits) = b.decs.map (fun c => c.map fun m => bits (energy m)) := by
    rw [e]; simp [Function.comp_def]
  constructor
  · intro w h hs
    obtain ⟨a, a1, a2, a3⟩ := Py.ofVecs_ok (vs := b.decs.map (fun c => c.map fun m => bits (energy m))) (n := subbandCount b.params)
      (by simpa using hdne) (by
        intro v hv
        obtain ⟨c, hc, rfl⟩ := List.mem_map.1 hv
        simpa using hcnt c hc) (by simpa [hlen] using h1) h2
    refine ⟨a, ?_, by rw [a2]; simp [hlen], fun ch c i m hc hm => a3 ch _ i _ (by rw [List.getElem?_map, hc]; rfl) (by simp [hm])⟩
    unfold Py.energyDistribution
    rw [hdist]
    simp only
    rw [if_neg (by simp [Params.dimension, hs]), a1]
  · intro n hs
    obtain ⟨c0, rest, hd⟩ := List.exists_cons_of_ne_nil hdne
    refine ⟨⟨Py.floatBytes (c0.map fun m => bits (energy m)), 0, [(c0.map fun m => bits (energy m)).length], [4], 4, true⟩, ?_, ?_, ?_⟩
    · unfold Py.energyDistribution
      rw [hdist]
      simp only
      rw [if_pos (by simp [Params.dimension, hs]), hd, List.map_cons]
    · simp [hcnt c0 (by simp [hd])]
    · intro c i m hc hm
      rw [hd] at hc
      simp only [List.getElem?_cons_zero, Option.some.injEq] at hc
      subst hc
      exact Py.ofVec_has _ _ _ (by simp [hm])

/-- C81 is false for one-dimensional signals with several channels: the result does not depend on any channel but the first. -/
theorem C81_channels_lost_counterexample (bits : ℝ → F32) (p : Params) (hp : p.shape.length = 1) (c : Channel ℝ) (d d' : Decs ℝ)
    (h : (Buffer.mk p (c :: d)).isEmpty = false) (h' : (Buffer.mk p (c :: d')).isEmpty = false) :
    Py.energyDistribution bits ⟨p, c :: d⟩ = Py.energyDistribution bits ⟨p, c :: d'⟩ := by
  have e : ∀ d, (Buffer.mk p (c :: d)).isEmpty = false →
      energyDistribution ⟨p, c :: d⟩ = (c :: d).map (fun c => c.map energy) := by
    intro d h
    unfold energyDistribution
    rw [if_neg (by rw [h]; exact Bool.false_ne_true)]
    simp only [energy_entry]
  unfold Py.energyDistribution
  rw [e d h, e d' h']
  simp only [List.map_cons, Params.dimension, hp, if_true]

/-- Two signals of one sample whose second channels have the energies 4 and 9. -/
example (bits : ℝ → F32) : Py.energyDistribution bits ⟨⟨[1], 2, 0, 0⟩, [[⟨1, 1, [1], rfl⟩], [⟨1, 1, [2], rfl⟩]]⟩ =
    Py.energyDistribution bits ⟨⟨[1], 2, 0, 0⟩, [[⟨1, 1, [1], rfl⟩], [⟨1, 1, [3], rfl⟩]]⟩ :=
  C81_channels_lost_counterexample bits _ rfl _ _ _ rfl rfl

/-- C82: `decomposition_size` is the number of subbands of every channel of a buffer with these parameters, whatever its history. -/
theorem C82_decomposition_size {α : Type} (b : Buffer α) (hb : WellFormed b) (hsize : ∀ n ∈ b.params.shape, n < 2 ^ 64) (c : Channel α)
    (hc : c ∈ b.decs) : Py.decompositionSize b.params.shape b.params.steps = c.length := by
  obtain ⟨⟨v1, v2, v3⟩, -, hcnt⟩ := hb
  have hsteps : b.params.steps < 64 := by
    by_cases hw : b.params.wtype = 0
    · rw [if_pos hw] at v3; omega
    · rw [if_neg hw] at v3
      obtain ⟨n, hn⟩ : ∃ n, n ∈ b.params.shape := by
        cases hs : b.params.shape with
        | nil => rw [hs] at v1; simp at v1
        | cons n l => exact ⟨n, by simp⟩
      have h1 := v3 n hn
      have h2 := hsize n hn
      have h3 : 2 ^ b.params.steps * 1 ≤ 2 ^ b.params.steps * (2 * b.params.wtype - 1) := Nat.mul_le_mul_left _ (by omega)
      exact (Nat.pow_lt_pow_iff_right (by norm_num)).1 (show 2 ^ b.params.steps < 2 ^ 64 by omega)
  rw [hcnt c hc]
  unfold Py.decompositionSize decompositionSize subbandsPerWT subbandCount detailsPerStep Params.dimension
  simp only
  rw [Nat.mod_eq_of_lt]
  split_ifs <;> omega

/-- Two steps on a picture give seven subbands. -/
example : Py.decompositionSize [16, 16] 2 = 7 := rfl

end Energy

section Codecs

theorem mapM_ub {β γ : Type} {f : β → Outcome γ} : ∀ {l : List β}, (∀ x ∈ l, f x ≠ .throw) → (∃ x ∈ l, f x = .ub) → l.mapM f = .ub
  | [], _, ⟨x, hx, _⟩ => by simp at hx
  | y :: l, hl, ⟨x, hx, hu⟩ => by
    rw [List.mapM_cons]
    cases hy : f y with
    | throw => exact absurd hy (hl y (by simp))
    | ub => rfl
    | ok z =>
      rw [Outcome.bind_ok]
      have hx' : x ∈ l := by
        rcases List.mem_cons.1 hx with rfl | h
        · rw [hu] at hy; cases hy
        · exact h
      rw [mapM_ub (fun x hx => hl x (by simp [hx])) ⟨x, hx', hu⟩]
      rfl

theorem mapM_not_throw {β γ : Type} {f : β → Outcome γ} : ∀ {l : List β}, (∀ x ∈ l, f x ≠ .throw) → l.mapM f ≠ .throw
  | [], _ => by rw [List.mapM_nil]; intro h; cases h
  | y :: l, hl => by
    rw [List.mapM_cons]
    cases hy : f y with
    | throw => exact absurd hy (hl y (by simp))
    | ub => intro h; cases h
    | ok z =>
      rw [Outcome.bind_ok]
      have := mapM_not_throw (f := f) (l := l) (fun x hx => hl x (by simp [hx]))
      cases hm : l.mapM f with
      | throw => exact absurd hm this
      | ub => intro h; cases h
      | ok zs => intro h; cases h

/-- C53 is false for every array of bytes, for instance a picture with 8-bit samples: it is read beyond the end of its memory. -/
theorem C53_byte_arrays (mem : Bytes) (c h w : ℕ) (strides : List ℤ) (hlen : mem.length = c * (h * w)) (hpos : 0 < c * (h * w))
    (h1 : c < 2 ^ 31) (h2 : h < 2 ^ 31) (h3 : w < 2 ^ 31) : Py.toSignal ⟨mem, 0, [c, h, w], strides, 1, true⟩ = .ub := by
  have hc : 0 < c := Nat.pos_of_mul_pos_right hpos
  have hhw : 0 < h * w := Nat.pos_of_mul_pos_left hpos
  have hh : 0 < h := Nat.pos_of_mul_pos_right hhw
  have hw : 0 < w := Nat.pos_of_mul_pos_left hhw
  have hno : ∀ k, Py.NpArray.float ⟨mem, 0, [c, h, w], strides, 1, true⟩ k ≠ .throw := by
    intro k
    unfold Py.NpArray.float Py.floatAt
    split_ifs <;> (intro h; cases h)
  have hfill : ∀ ch : ℕ, (Py.fillMat h w fun i j => Py.NpArray.float ⟨mem, 0, [c, h, w], strides, 1, true⟩ (h * w * ch + w * i + j)) ≠ .throw := by
    intro ch
    unfold Py.fillMat
    have := mapM_not_throw (f := fun k => Py.NpArray.float ⟨mem, 0, [c, h, w], strides, 1, true⟩ (h * w * ch + w * (k / w) + k % w))
      (l := List.range (h * w)) (fun k _ => hno _)
    cases hm : (List.range (h * w)).mapM fun k => Py.NpArray.float ⟨mem, 0, [c, h, w], strides, 1, true⟩ (h * w * ch + w * (k / w) + k % w) with
    | throw => exact absurd hm this
    | ub => intro h; cases h
    | ok zs => intro h; cases h
  unfold Py.toSignal
  simp only
  rw [if_neg (by simp), if_neg (by omega)]
  refine mapM_ub (fun ch _ => hfill ch) ⟨c - 1, by simp; omega, ?_⟩
  unfold Py.fillMat
  rw [mapM_ub (f := fun k => Py.NpArray.float ⟨mem, 0, [c, h, w], strides, 1, true⟩ (h * w * (c - 1) + w * (k / w) + k % w))
    (fun k _ => hno _) ⟨h * w - 1, by simp; omega, ?_⟩]
  · rfl
  · have e1 : w * ((h * w - 1) / w) + (h * w - 1) % w = h * w - 1 := Nat.div_add_mod _ _
    have e2 : h * w * (c - 1) + (h * w - 1) + 1 = c * (h * w) := by
      obtain ⟨c', rfl⟩ : ∃ c', c = c' + 1 := ⟨c - 1, by omega⟩
      rw [Nat.add_sub_cancel, Nat.succ_mul, Nat.mul_comm]
      omega
    unfold Py.NpArray.float Py.floatAt
    rw [if_neg]
    simp only
    omega

/-- A 2 × 2 picture with three 8-bit channels. -/
example : Py.toSignal ⟨[1, 2, 3, 4, 5, 6, 7, 8, 9, 10, 11, 12], 0, [3, 2, 2], [4, 2, 1], 1, true⟩ = .ub :=
  C53_byte_arrays _ 3 2 2 _ rfl (by norm_num) (by norm_num) (by norm_num) (by norm_num)

/-- C83 is false for arrays with fewer than three dimensions, for instance gray pictures, and for arrays of bytes: `encode` does not raise an
exception, it is undefined behaviour. -/
theorem C83_encode_counterexample (e : JpegExt F32) (kind : CodecKind) (quality : ℤ) (sc : ℕ) :
    (∀ a : Py.NpArray, a.shape.length < 3 → Py.encode e kind quality a sc = .ub) ∧
    ∀ (mem : Bytes) (c h w : ℕ) (strides : List ℤ), mem.length = c * (h * w) → 0 < c * (h * w) → c < 2 ^ 31 → h < 2 ^ 31 → w < 2 ^ 31 →
      Py.encode e kind quality ⟨mem, 0, [c, h, w], strides, 1, true⟩ sc = .ub := by
  constructor
  · intro a ha
    have : Py.toSignal a = .ub := by
      unfold Py.toSignal
      split
      next hs => rw [hs] at ha; simp at ha; omega
      · rfl
    unfold Py.encode
    rw [this]
    rfl
  · intro mem c h w strides hlen hpos h1 h2 h3
    unfold Py.encode
    rw [C53_byte_arrays mem c h w strides hlen hpos h1 h2 h3]
    rfl

/-- C83: `decode` raises an exception for data that is empty or that the JPEG library rejects. -/
theorem C83_decode_raises (e : JpegExt F32) (kind : CodecKind) (blob : Bytes) (h : blob = [] ∨ e.load blob = .throw) :
    Py.decode e kind blob = .throw := by
  unfold Py.decode
  rw [C44_decode_rejects e kind blob [] 0 h]
  rfl

/-- C83: `decode` returns an array that is, element by element, the decoded picture. -/
theorem C83_decode (e : JpegExt F32) (hl : F32 → F32 → F32 → F32 × F32 × F32)
    (hhl : ∀ a b c, e.rgbHsl (e.ofPx a) (e.ofPx b) (e.ofPx c) = .ok (hl (e.ofPx a) (e.ofPx b) (e.ofPx c))) (kind : CodecKind) (blob : Bytes)
    (hb : blob ≠ []) (img : CImg) (hi : e.load blob = .ok img) (hs : kind.needs ≤ img.spectrum) (h1 : img.height < 2 ^ 31)
    (h2 : img.width < 2 ^ 31) :
    ∃ a, Py.decode e kind blob = .ok a ∧ Contiguous3 a kind.needs img.height img.width ∧ a.writable = true ∧
      ∀ c < kind.needs, ∀ y < img.height, ∀ x < img.width, ∃ px : ℕ → UInt8, (∀ k < kind.needs, img.at x y k = .ok (px k)) ∧
        HasElement a [c, y, x] (decodedSample kind e.ofPx hl px c) := by
  obtain ⟨im, d1, d2, -, -, d5⟩ := C44_decode e hl hhl kind blob [] 0 (by norm_num) hb img hi hs
  have hn : 0 < kind.needs ∧ kind.needs ≤ 3 := by cases kind <;> simp [CodecKind.needs]
  simp only [List.length_nil, Nat.zero_add, Nat.zero_max] at d2
  have hsz : ∀ m ∈ im, m.rows = img.height ∧ m.cols = img.width := by
    intro m hm
    obtain ⟨i, hi'⟩ := List.getElem?_of_mem hm
    obtain ⟨m', e1, e2, e3, -⟩ := d5 i (by rw [← d2]; exact (List.getElem?_eq_some_iff.1 hi').1)
    rw [Nat.zero_add, hi'] at e1
    cases e1
    exact ⟨e2, e3⟩
  obtain ⟨a, a1, a2, a3, a4⟩ := Py.ofSignal_ok (ms := im) (by
    intro h; rw [h] at d2; simp at d2; omega) hsz (by omega) h1 h2
  refine ⟨a, ?_, by rw [← d2]; exact a2, a3, fun c hc y hy x hx => ?_⟩
  · unfold Py.decode
    rw [d1, Outcome.bind_ok]
    exact a1
  · obtain ⟨m, e1, e2, e3, e4⟩ := d5 c hc
    obtain ⟨px, p1, p2⟩ := e4 y hy x hx
    refine ⟨px, p1, ?_⟩
    rw [Nat.zero_add] at e1
    obtain ⟨h', w', g1, g2⟩ := a4
    have hsh := a2.1
    rw [g1] at hsh
    simp only [List.cons.injEq, and_true, true_and] at hsh
    obtain ⟨rfl, rfl⟩ := hsh
    obtain ⟨-, -, g3⟩ := g2 c m e1
    rw [← p2]
    exact g3 y hy x hx

/-- C83, part that holds: `encode` of a writable array of floats one after the other is the C++ `Encode` of the channels it stands for, and
raises an exception if that fails. Missing: arrays with fewer dimensions, of another element type (`C83_encode_counterexample`) or with another
layout (`C53_layout_matters`). -/
theorem C83_encode_partial (e : JpegExt F32) (kind : CodecKind) (quality : ℤ) (sc c h w : ℕ) (a : Py.NpArray) (ha : Contiguous3 a c h w)
    (hw : a.writable = true) (h1 : c < 2 ^ 31) (h2 : h < 2 ^ 31) (h3 : w < 2 ^ 31) :
    ∃ ms, Represents a ms ∧
      (∀ out, codecEncode e kind quality ms [] sc = .ok out true → Py.encode e kind quality a sc = .ok out) ∧
      (∀ out, codecEncode e kind quality ms [] sc = .ok out false → Py.encode e kind quality a sc = .throw) ∧
      (∀ out, codecEncode e kind quality ms [] sc = .throw out → Py.encode e kind quality a sc = .throw) := by
  obtain ⟨ms, m1, m2⟩ := Py.toSignal_ok ha hw h1 h2 h3
  refine ⟨ms, m2, fun out ho => ?_, fun out ho => ?_, fun out ho => ?_⟩ <;>
    (unfold Py.encode; rw [m1, Outcome.bind_ok]; simp [ho])

/-- C83: decoding a picture with the RGB or gray codec and encoding the array again hands the JPEG library the pixels that it produced (if the
conversions of pixels have the property of C43). -/
theorem C83_round_trip (e : JpegExt F32) (hpx : ∀ p, e.toPx (e.ofPx p) = .ok p) (kind : CodecKind) (hkind : kind ≠ .hsl) (quality : ℤ)
    (blob : Bytes) (hb : blob ≠ []) (img : CImg) (hi : e.load blob = .ok img) (hs : kind.needs ≤ img.spectrum) (h0 : 0 < img.height)
    (h0' : 0 < img.width) (h1 : img.height < 2 ^ 31) (h2 : img.width < 2 ^ 31) :
    ∃ a img', Py.decode e kind blob = .ok a ∧ img'.width = img.width ∧ img'.height = img.height ∧ img'.spectrum = kind.needs ∧
      (∀ x < img.width, ∀ y < img.height, ∀ c < kind.needs, img'.at x y c = img.at x y c) ∧
      ∀ out, e.save img' ((kind.needs * img.height * img.width + 1000) % 2 ^ 32) quality = .ok out →
        Py.encode e kind quality a 0 = .ok out := by
  have hn : 0 < kind.needs ∧ kind.needs ≤ 3 := by cases kind <;> simp [CodecKind.needs]
  -- the conversion to HSL is not used
  let hl : F32 → F32 → F32 → F32 × F32 × F32 := fun a b c => (a, b, c)
  let e' : JpegExt F32 := { e with rgbHsl := fun a b c => .ok (a, b, c) }
  have hdec : ∀ im sc, codecDecode e' kind blob im sc = codecDecode e kind blob im sc := by
    intro im sc
    cases kind with
    | hsl => exact absurd rfl hkind
    | rgb => rfl
    | gray => rfl
  obtain ⟨a, a1, a2, a3, a4⟩ := C83_decode e' hl (fun _ _ _ => rfl) kind blob hb img hi hs h1 h2
  obtain ⟨ms, m1, m2, -, -⟩ := C83_encode_partial e kind quality 0 kind.needs img.height img.width a a2 a3 (by omega) h1 h2
  obtain ⟨h', w', g1, g2⟩ := m1
  have hsh := a2.1
  rw [g1] at hsh
  simp only [List.cons.injEq, and_true] at hsh
  obtain ⟨hlen, rfl, rfl⟩ := hsh
  have hsamp : ∀ c < kind.needs, ∀ y < img.height, ∀ x < img.width, ∃ p, img.at x y c = .ok p ∧ sampleAt ms c y x = e.ofPx p := by
    intro c hc y hy x hx
    obtain ⟨px, p1, p2⟩ := a4 c hc y hy x hx
    refine ⟨px c, p1 c hc, ?_⟩
    have hlt : c < ms.length := by omega
    obtain ⟨-, -, g3⟩ := g2 c _ (List.getElem?_eq_getElem hlt)
    have := Py.hasFloat_unique (g3 y hy x hx) p2
    unfold sampleAt
    rw [List.getD_eq_getElem?_getD, List.getElem?_eq_getElem hlt, Option.getD_some, this]
    cases kind with
    | hsl => exact absurd rfl hkind
    | rgb => rfl
    | gray => rfl
  have hcs : ∀ c y x, colourSample kind hl ms 0 y x c = sampleAt ms c y x := by
    intro c y x
    cases kind with
    | hsl => exact absurd rfl hkind
    | rgb => simp [colourSample]
    | gray => simp [colourSample]
  have hE : Encodable kind ms 0 img.height img.width := by
    refine ⟨h0, h0', fun c hc => ?_⟩
    have hlt : c < ms.length := by omega
    obtain ⟨r1, r2, -⟩ := g2 c _ (List.getElem?_eq_getElem hlt)
    exact ⟨_, by rw [Nat.zero_add]; exact List.getElem?_eq_getElem hlt, r1, r2⟩
  classical
  let tp : F32 → UInt8 := fun x => if h : ∃ p, e.toPx x = .ok p then h.choose else 0
  have htp : ∀ x p, e.toPx x = .ok p → tp x = p := by
    intro x p h
    have hex : ∃ p, e.toPx x = .ok p := ⟨p, h⟩
    have : tp x = hex.choose := dif_pos hex
    rw [this]
    have h2 : Outcome.ok p = Outcome.ok hex.choose := h.symm.trans hex.choose_spec
    injection h2 with h3
    exact h3.symm
  obtain ⟨img', i1, i2, i3, i4, i5, -⟩ := C44_encode_accepts e tp hl kind quality ms [] 0 img.height img.width (by norm_num) hE (by
      intro x hx y hy c hc
      obtain ⟨p, p1, p2⟩ := hsamp c hc y hy x hx
      rw [hcs, p2, hpx, htp _ _ (hpx p)]) (fun h => absurd h hkind)
  refine ⟨a, img', ?_, i1, i2, i3, ?_, ?_⟩
  · rw [← a1]
    unfold Py.decode
    rw [hdec]
  · intro x hx y hy c hc
    obtain ⟨p, p1, p2⟩ := hsamp c hc y hy x hx
    rw [i4 x hx y hy c hc, hcs, p2, htp _ _ (hpx p), p1]
  · intro out ho
    exact m2 out (i5 out (by rw [hlen]; exact ho))

/-- A library and a picture of two pixels that meet the hypotheses of the round trip. -/
example : let e : JpegExt F32 := ⟨fun _ => .ok ⟨2, 1, 3, [1, 2, 3, 4, 5, 6], rfl⟩, fun i _ _ => .ok i.data,
      fun p => p.toBitVec.setWidth 32, fun x => .ok ⟨x.setWidth 8⟩, fun a b c => .ok (a, b, c), fun a b c => .ok (a, b, c)⟩
    (∀ p, e.toPx (e.ofPx p) = .ok p) ∧ ∃ img, e.load [1] = .ok img ∧ CodecKind.rgb.needs ≤ img.spectrum ∧ 0 < img.height ∧ 0 < img.width := by
  refine ⟨fun p => ?_, _, rfl, le_refl 3, by decide, by decide⟩
  simp

end Codecs

section Images
variable {α : Type} [Zero α] [Add α] [Mul α] [Neg α] [Inhabited α]

/-- C84: importing returns without an exception exactly when the C++ call reports success; when that reports an error, an exception is raised and
the image is what it was. -/
theorem C84_import (k : Kit α) (codec : ImageCodec α) (env : FileEnv) (fs : Files) (b : Buffer α) (den : Denoiser α) (sc : ℕ) :
    (∀ blob d, Py.importFromString k codec b blob den sc = .ok d () ↔ importFromString k codec b blob den sc = .ok d .kOk) ∧
    (∀ path d, Py.importFromFile k codec env fs b path den sc = .ok d () ↔ importFromFile k codec env fs b path den sc = .ok d .kOk) ∧
    (∀ blob d st, st ≠ .kOk → importFromString k codec b blob den sc = .ok d st →
      Py.importFromString k codec b blob den sc = .throw b.decs) ∧
    ∀ path d st, st ≠ .kOk → importFromFile k codec env fs b path den sc = .ok d st →
      Py.importFromFile k codec env fs b path den sc = .throw b.decs := by
  have key : ∀ (r : Run (Decs α) Status) d, Py.okOrThrow r = .ok d () ↔ r = .ok d .kOk := by
    intro r d
    unfold Py.okOrThrow
    cases r with
    | throw s => exact ⟨(nomatch ·), (nomatch ·)⟩
    | ub => exact ⟨(nomatch ·), (nomatch ·)⟩
    | ok s st =>
      rw [Run.bind_ok]
      cases st <;> simp
  have key2 : ∀ (r : Run (Decs α) Status) d st, st ≠ .kOk → r = .ok d st → Py.okOrThrow r = .throw d := by
    rintro r d st hst rfl
    unfold Py.okOrThrow
    rw [Run.bind_ok, if_pos hst]
  refine ⟨fun blob d => key _ d, fun path d => key _ d, fun blob d st hst h => ?_, fun path d st hst h => ?_⟩
  · have := (C45_failed_import_changes_nothing k codec env fs b den sc d st hst).1 blob h
    rw [← this]
    exact key2 _ d st hst h
  · have := (C45_failed_import_changes_nothing k codec env fs b den sc d st hst).2 path h
    rw [← this]
    exact key2 _ d st hst h

theorem dataOrThrow_ok (r : Run Bytes Status) (data : Bytes) : Py.dataOrThrow r = .ok data ↔ r = .ok data .kOk := by
  cases r with
  | throw s => exact ⟨(nomatch ·), (nomatch ·)⟩
  | ub => exact ⟨(nomatch ·), (nomatch ·)⟩
  | ok s st => unfold Py.dataOrThrow; cases st <;> simp

/-- C84: exporting to a string returns exactly when the C++ call reports success, and then its data. -/
theorem C84_export_to_string (k : Kit α) (codec : ImageCodec α) (b : Buffer α) (sc : ℕ) (data : Bytes) :
    Py.exportToString k codec b sc = .ok data ↔ exportToString k codec b [] sc = .ok data .kOk := dataOrThrow_ok _ data

/-- C84 is false for `export_to_file`: when the image cannot be exported, an exception is raised and the old content of the file is lost. -/
theorem C84_export_counterexample (k : Kit α) (codec : ImageCodec α) (env : FileEnv) (fs : Files) (b : Buffer α) (path : String) (sc : ℕ)
    (ho : env.canWrite path = true) (hsc : sc + codec.channels < 2 ^ 31) (h : b.params.signalNumber < sc + codec.channels) :
    (Py.exportToFile k codec env b path sc).2 = .throw ∧ runEffects fs (Py.exportToFile k codec env b path sc).1 path = some [] := by
  obtain ⟨h1, h2⟩ := C45_failed_export_destroys_file k codec env fs b path sc ho [] .kCompositionError (by decide)
    ((C45_export_to_string k codec b [] sc hsc).1 h)
  refine ⟨?_, h2⟩
  show ((exportToFile k codec env b path sc).2 >>= fun st => if st ≠ .kOk then .throw else .ok ()) = _
  rw [h1]
  rfl

/-- C84 is false for `save`: when the disk is full it returns without an exception, and loading the file fails. -/
theorem C84_save_counterexample (e : Ext) (M : ℕ) (env : FileEnv) (fs : Files) (b : Buffer F32) (path : String) (hb : WellFormed b)
    (hf : FitsFormat b) (hM : Room e M) (hm : FitsMemory b M) (hch : 0 < b.params.signalNumber) (ho : env.canWrite path = true)
    (hr : env.canRead path = true) (hcut : ∀ data, env.kept path data < data.length ∨ data = [])
    (hlen : ∀ data, serialize e b [] 0 = .ok (true, data) → data.length ≤ M) :
    ∃ effects, Py.save e env b path = (effects, .ok ()) ∧
      (loadImageFile e env (runEffects fs effects) path = .ok none ∨ loadImageFile e env (runEffects fs effects) path = .ub) := by
  obtain ⟨effects, h1, h2⟩ := C46_cut_write_unnoticed e M env fs b path hb hf hM hm hch ho hr hcut hlen
  refine ⟨effects, ?_, h2⟩
  unfold Py.save Py.raise
  rw [h1]
  rfl

/-- C84, part that holds: when the disk takes all data, `save` returns without an exception and `load` gives back the image. Missing:
`C84_save_counterexample`. -/
theorem C84_save_partial (e : Ext) (M : ℕ) (env : FileEnv) (fs : Files) (b : Buffer F32) (path : String) (hb : WellFormed b)
    (hf : FitsFormat b) (hM : Room e M) (hm : FitsMemory b M) (ho : env.canWrite path = true) (hr : env.canRead path = true)
    (hall : ∀ data, env.kept path data = data.length) :
    ∃ effects data, Py.save e env b path = (effects, .ok ()) ∧ runEffects fs effects path = some data ∧
      (data.length ≤ M → loadImageFile e env (runEffects fs effects) path = .ok (some b)) := by
  obtain ⟨effects, data, h1, h2, -, h3⟩ := C46_save_load_partial e M env fs b path hb hf hM hm ho hr hall
  refine ⟨effects, data, ?_, h2, h3⟩
  unfold Py.save Py.raise
  rw [h1]
  rfl

/-- C84: a path that cannot be written gives an exception and touches no file. -/
theorem C84_not_writable (e : Ext) (k : Kit α) (codec : ImageCodec α) (env : FileEnv) (b : Buffer α) (c : Buffer F32) (path : String) (sc : ℕ)
    (ho : env.canWrite path = false) :
    Py.save e env c path = ([], .throw) ∧ Py.exportToFile k codec env b path sc = ([], .throw) := by
  have h1 : saveImageFile e env c path = ([], .ok .kIOError) := if_neg (by rw [ho]; exact Bool.false_ne_true)
  have h2 : exportToFile k codec env b path sc = ([], .ok .kIOError) := if_neg (by rw [ho]; exact Bool.false_ne_true)
  constructor
  · unfold Py.save
    rw [h1]
    rfl
  · unfold Py.exportToFile
    rw [h2]
    rfl

/-- Exporting an image with two channels by a codec for three destroys the file. -/
example : let codec : ImageCodec ℤ := ⟨3, fun _ => .ok (false, []), fun _ _ => .ok [] true⟩
    let b : Buffer ℤ := ⟨⟨[2, 1], 2, 0, 0⟩, [[Mat.empty], [Mat.empty]]⟩
    let env : FileEnv := ⟨fun _ => true, fun _ => true, fun _ d => d.length⟩
    (Py.exportToFile ⟨fun _ => [], id, fun _ _ x => x⟩ codec env b "a.jpg" 0).2 = .throw :=
  (C84_export_counterexample _ _ _ (fun _ => none) _ _ _ rfl (by decide) (by decide)).1

end Images

end WB.Props

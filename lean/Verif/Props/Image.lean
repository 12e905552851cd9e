import Verif.Proof.Image
import Verif.Props.Codec
import Verif.Props.Views
import Verif.Props.Transform
import Verif.Props.Serialize
import Verif.Props.Params

/-! Properties C45, C46, C63 and C64: images and files. -/

set_option linter.unusedSectionVars false
set_option linter.constructorNameAsVariable false

namespace WB.Props

open WB WB.Spec

section
variable {α : Type} [Zero α] [Add α] [Mul α] [Neg α] [Inhabited α]

/-- C45: whatever the buffer, the codec and the start channel, an import that reports a failure has changed nothing. -/
theorem C45_failed_import_changes_nothing (k : Kit α) (codec : ImageCodec α) (env : FileEnv) (fs : Files) (b : Buffer α)
    (den : Denoiser α) (sc : ℕ) (d : Decs α) (st : Status) (hst : st ≠ .kOk) :
    (∀ blob, importFromString k codec b blob den sc = .ok d st → d = b.decs) ∧
    ∀ path, importFromFile k codec env fs b path den sc = .ok d st → d = b.decs := by
  have key : ∀ blob, importFromString k codec b blob den sc = .ok d st → d = b.decs := by
    intro blob h
    unfold importFromString at h
    cases h1 : codec.decode blob with
    | throw => rw [h1] at h; cases h
    | ub => rw [h1] at h; cases h
    | ok r =>
      rw [h1, Run.lift_ok, Run.bind_ok] at h
      cases h2 : r.1 with
      | false => rw [h2] at h; cases h; rfl
      | true =>
        rw [h2, if_pos rfl] at h
        cases h3 : (View.mk (toInt32 sc) (toInt32 r.2.length) false).decompose k ⟨b.params, b.decs⟩ r.2 den with
        | throw s => rw [h3] at h; cases h
        | ub => rw [h3] at h; cases h
        | ok s good =>
          rw [h3, Run.bind_ok] at h
          cases good with
          | true => simp only [if_true] at h; cases h; exact absurd rfl hst
          | false =>
            have := view_decompose_false _ _ _ _ _ _ h3
            cases h; exact this
  refine ⟨key, ?_⟩
  intro path h
  unfold importFromFile at h
  cases h1 : readFile env fs path with
  | none => rw [h1] at h; cases h; rfl
  | some blob => rw [h1] at h; exact key blob h

/-- C45: an import of `n` channels from start channel `sc` changes no other channel, also if an exception leaves it. -/
theorem C45_import_changes_only_its_channels (k : Kit α) (codec : ImageCodec α) (b : Buffer α) (blob : Bytes) (den : Denoiser α)
    (sc : ℕ) (im : List (Mat α)) (hdec : codec.decode blob = .ok (true, im)) (hsc : sc + im.length < 2 ^ 31) :
    (∀ d st, importFromString k codec b blob den sc = .ok d st →
      ∀ ch, ch < sc ∨ sc + im.length ≤ ch → d[ch]? = b.decs[ch]?) ∧
    ∀ d, importFromString k codec b blob den sc = .throw d →
      ∀ ch, ch < sc ∨ sc + im.length ≤ ch → d[ch]? = b.decs[ch]? := by
  have h : (importFromString k codec b blob den sc).After (SameOutside (fun ch => sc ≤ ch ∧ ch < sc + im.length) b.decs) := by
    have hv : ((View.mk sc im.length false).decompose k b im den).After
        (SameOutside (fun ch => sc ≤ ch ∧ ch < sc + im.length) b.decs) := by
      unfold View.decompose
      have := decomposeImpl_outside k (freshStack k b.params) b.params b.decs im den sc im.length
        (fun ch => sc ≤ ch ∧ ch < sc + im.length) (by
          intro ch hch
          unfold loopChannels at hch
          rw [if_neg (by omega), List.mem_range'] at hch
          obtain ⟨i, hi, rfl⟩ := hch
          omega)
      generalize (View.mk sc im.length false).checkRange b.params.signalNumber = z
      cases z with
      | throw => exact fun _ _ => rfl
      | ub => trivial
      | ok good =>
        rw [Run.lift_ok, Run.bind_ok]
        cases good with
        | false => exact fun _ _ => rfl
        | true => exact this
    rw [import_start k codec b blob den sc im hdec (toInt32_nat (by omega)) (toInt32_nat (by omega))]
    generalize (View.mk sc im.length false).decompose k b im den = z at hv ⊢
    cases z with
    | ok s' a => exact hv
    | throw s' => exact hv
    | ub => trivial
  constructor
  · intro d st he ch hch
    rw [he] at h; exact h ch (by omega)
  · intro d he ch hch
    rw [he] at h; exact h ch (by omega)

/-- C45: data that the codec rejects give `kWrongData`, a file that cannot be read gives `kIOError`. -/
theorem C45_rejected_data (k : Kit α) (codec : ImageCodec α) (env : FileEnv) (fs : Files) (b : Buffer α) (den : Denoiser α) (sc : ℕ) :
    (∀ blob im, codec.decode blob = .ok (false, im) → importFromString k codec b blob den sc = .ok b.decs .kWrongData) ∧
    (∀ path, env.canRead path = false ∨ fs path = none → importFromFile k codec env fs b path den sc = .ok b.decs .kIOError) ∧
    ∀ path blob, env.canRead path = true → fs path = some blob →
      importFromFile k codec env fs b path den sc = importFromString k codec b blob den sc := by
  refine ⟨?_, ?_, ?_⟩
  · intro blob im h
    unfold importFromString; rw [h]; rfl
  · intro path h
    have : readFile env fs path = none := by
      unfold readFile
      rcases h with h | h
      · rw [h]; rfl
      · rw [h]; split_ifs <;> rfl
    unfold importFromFile; rw [this]
  · intro path blob h1 h2
    have : readFile env fs path = some blob := by unfold readFile; rw [h1, if_pos rfl, h2]
    unfold importFromFile; rw [this]

/-- C45, import of a decoded picture into a two-dimensional buffer: `kOk` exactly if the channels exist and the picture has the
size of the image; then every imported channel holds what decomposing that channel alone gives. Otherwise
`kDecompositionError`. Missing: start channels that do not fit in an `int` (`C45_start_channel_wraps`). -/
theorem C45_import_partial (k : Kit α) (codec : ImageCodec α) (b : Buffer α) (hb : WellFormed b) (hk : FilterPresent k b.params)
    (w h : ℕ) (h2 : b.params.shape = [w, h]) (blob : Bytes) (den : Denoiser α) (hden : KeepsSizes den) (sc : ℕ) (im : List (Mat α))
    (hdec : codec.decode blob = .ok (true, im)) (hn : 0 < im.length) (rows cols : ℕ)
    (hsame : ∀ m ∈ im, m.rows = rows ∧ m.cols = cols) (hsc : sc + im.length < 2 ^ 31) :
    ((sc + im.length ≤ b.params.signalNumber ∧ cols = w ∧ rows = h) →
      ∃ d, importFromString k codec b blob den sc = .ok d .kOk ∧ d.length = b.decs.length ∧
        ∀ i m own, im[i]? = some m → WellFormed own → own.params = { b.params with signalNumber := 1 } →
          ∃ c, d[sc + i]? = some c ∧ own.decompose k [m] den = .ok [c] true) ∧
    (¬ (sc + im.length ≤ b.params.signalNumber ∧ cols = w ∧ rows = h) →
      importFromString k codec b blob den sc = .ok b.decs .kDecompositionError) := by
  have start : ∀ d good, (View.mk sc im.length false).decompose k b im den = .ok d good →
      importFromString k codec b blob den sc = .ok d (if good then .kOk else .kDecompositionError) := by
    intro d good hd
    rw [import_start k codec b blob den sc im hdec (toInt32_nat (by omega)) (toInt32_nat (by omega))]
    rw [hd]; rfl
  constructor
  · rintro ⟨h3, rfl, rfl⟩
    obtain ⟨d, e1, e2, e3, e4⟩ := C23_view_decomposition_local k b hb hk sc im.length hn h3 hsc im
      ⟨rfl, fun m hm => by simp only [h2]; exact hsame m hm⟩ den hden
    refine ⟨d, ?_, e2, e4⟩
    rw [start d true e1]; rfl
  · intro hnot
    by_cases h3 : sc + im.length ≤ b.params.signalNumber
    · have hbad : ¬ (cols = w ∧ rows = h) := fun h => hnot ⟨h3, h⟩
      have hdim : b.params.dimension = 2 := by unfold Params.dimension; rw [h2]; rfl
      have hsh : shapeCheck b.params im im.length = .ok false := by
        unfold shapeCheck
        rw [if_pos hdim, if_neg (by simp), rd_ok hn, Outcome.bind_ok]
        obtain ⟨r1, r2⟩ := hsame _ (List.getElem_mem hn)
        have : ¬ (im[0].cols = b.params.shape.getD 0 0 ∧ im[0].rows = b.params.shape.getD 1 0) := by
          rw [h2, r1, r2]; exact hbad
        simp only [this, decide_false]; rfl
      have hd : (View.mk sc im.length false).decompose k b im den = .ok b.decs false := by
        unfold View.decompose View.checkRange
        have e1 : -2 ^ 31 ≤ (sc : ℤ) + (im.length : ℤ) ∧ (sc : ℤ) + (im.length : ℤ) < 2 ^ 31 := by
          constructor <;> omega
        have e2 : (0 ≤ (sc : ℤ) + (im.length : ℤ) ∧ (sc : ℤ) + (im.length : ℤ) ≤ (b.params.signalNumber : ℤ)) := by
          constructor <;> omega
        simp only [if_pos e1, e2, and_self, decide_true, Run.lift_ok, Run.bind_ok, if_true]
        unfold decomposeImpl
        rw [hsh]; rfl
      rw [start _ _ hd]; rfl
    · have hd := (C24_rejects_beyond_end_partial k b (View.mk sc im.length false) (by simp only; omega) (by simp only; omega)
        (by simp only; omega)).1 im den
      rw [start _ _ hd]; rfl

/-- C45 is false for start channels that are not `int`s: a picture of three channels imported at channel `2^32 - 1` of a
three-channel image is reported as imported although nothing was stored; at channel `2^32` it replaces channels 0, 1, 2. -/
theorem C45_start_channel_wraps (k : Kit α) (codec : ImageCodec α) (b : Buffer α) (hb : WellFormed b) (hk : FilterPresent k b.params)
    (w h : ℕ) (h2 : b.params.shape = [w, h]) (hn : b.params.signalNumber = 3) (blob : Bytes) (den : Denoiser α) (m0 m1 m2 : Mat α)
    (hdec : codec.decode blob = .ok (true, [m0, m1, m2])) (hs : ∀ m ∈ [m0, m1, m2], HasShape [w, h] m) :
    importFromString k codec b blob den (2 ^ 32 - 1) = .ok b.decs .kOk ∧
    importFromString k codec b blob den (2 ^ 32) = importFromString k codec b blob den 0 := by
  have hdim : b.params.dimension = 2 := by unfold Params.dimension; rw [h2]; rfl
  have hsc : shapeCheck b.params [m0, m1, m2] 3 = .ok true := by
    have := shapeCheck_ok hb.1 (data := [m0, m1, m2]) (by simp) (fun m hm => shaped_of (by rw [h2]; exact hs m hm))
    exact this
  constructor
  · unfold importFromString
    rw [hdec, Run.lift_ok, Run.bind_ok, if_pos rfl]
    have t1 : toInt32 ((2 ^ 32 - 1 : ℕ) : ℤ) = -1 := by decide
    have t2 : toInt32 (([m0, m1, m2].length : ℕ) : ℤ) = 3 := by rw [show [m0, m1, m2].length = 3 from rfl]; decide
    simp only at t2 ⊢
    rw [t1, t2]
    have hr : (View.mk (-1) 3 false).checkRange b.params.signalNumber = .ok true := by
      unfold View.checkRange; simp [hn]
    have hd : (View.mk (-1) 3 false).decompose k ⟨b.params, b.decs⟩ [m0, m1, m2] den = .ok b.decs true := by
      unfold View.decompose
      simp only [hr, Run.lift_ok, Run.bind_ok, if_true]
      unfold decomposeImpl
      rw [hsc, Run.lift_ok, Run.bind_ok, if_pos rfl, if_pos hdim]
      rw [freshStack_ok hb.1 hk, Run.lift_ok, Run.bind_ok]
      rfl
    rw [hd]; rfl
  · unfold importFromString
    have t1 : toInt32 ((2 ^ 32 : ℕ) : ℤ) = toInt32 ((0 : ℕ) : ℤ) := by decide
    rw [t1]

/-- C45: exporting to a string reports a failure exactly if the channels do not exist or the encoder refuses; the start channel
is an `int`. -/
theorem C45_export_to_string (k : Kit α) (codec : ImageCodec α) (b : Buffer α) (old : Bytes) (sc : ℕ)
    (hsc : sc + codec.channels < 2 ^ 31) :
    (b.params.signalNumber < sc + codec.channels → exportToString k codec b old sc = .ok old .kCompositionError) ∧
    ∀ out, sc + codec.channels ≤ b.params.signalNumber → b.compose k 0 = .ok out →
      (∀ data, codec.encode ((out.drop sc).take codec.channels) old = .ok data true →
        exportToString k codec b old sc = .ok data .kOk) ∧
      (∀ data, codec.encode ((out.drop sc).take codec.channels) old = .ok data false →
        exportToString k codec b old sc = .ok data .kWrongData) := by
  have t1 : toInt32 sc = sc := toInt32_nat (by omega)
  have t2 : toInt32 codec.channels = codec.channels := toInt32_nat (by omega)
  constructor
  · intro h
    exact export_none k codec b old sc t1 t2 ((C24_rejects_beyond_end_partial k b (View.mk sc codec.channels true)
      (by simp only; omega) (by simp only; omega) (by simp only; omega)).2 0)
  · intro out h1 h2
    have := export_some k codec b old sc t1 t2 _ (C26_view_composition_is_slice k b true sc codec.channels h1 hsc 0 out h2)
    constructor
    · intro data hd; rw [this, hd]; rfl
    · intro data hd; rw [this, hd]; rfl

/-- C45: what is left of a file after `ExportToFile`. No other file is touched; if the file could not be opened nothing is touched;
if all bytes could be written a successful export leaves exactly the exported string. Missing: the file survives a failing export
(`C45_failed_export_destroys_file`). -/
theorem C45_export_to_file_partial (k : Kit α) (codec : ImageCodec α) (env : FileEnv) (fs : Files) (b : Buffer α) (path : String)
    (sc : ℕ) :
    (∀ q, q ≠ path → runEffects fs (exportToFile k codec env b path sc).1 q = fs q) ∧
    (env.canWrite path = false → (exportToFile k codec env b path sc).2 = .ok .kIOError ∧
      runEffects fs (exportToFile k codec env b path sc).1 = fs) ∧
    (env.canWrite path = true → ∀ data, exportToString k codec b [] sc = .ok data .kOk → env.kept path data = data.length →
      (exportToFile k codec env b path sc).2 = .ok .kOk ∧
      runEffects fs (exportToFile k codec env b path sc).1 path = some data) := by
  have hcreate : ∀ q, q ≠ path → runEffects fs [.create path] q = fs q := by
    intro q hq
    show (if q = path then some [] else fs q) = _
    rw [if_neg hq]
  refine ⟨?_, ?_, ?_⟩
  · intro q hq
    unfold exportToFile
    split_ifs
    · cases h : exportToString k codec b [] sc with
      | throw s => exact hcreate q hq
      | ub => exact hcreate q hq
      | ok data st =>
        cases st with
        | kOk =>
          show runEffects fs (.create path :: List.map _ _) q = _
          rw [runEffects_write]; simp only; rw [if_neg hq]
        | _ => exact hcreate q hq
    · rfl
  · intro h
    unfold exportToFile
    rw [h, if_neg (by simp)]
    exact ⟨rfl, rfl⟩
  · intro h data hd hk
    unfold exportToFile
    rw [h, if_pos rfl, hd]
    refine ⟨rfl, ?_⟩
    show runEffects fs (.create path :: List.map _ (List.take _ _)) path = _
    rw [runEffects_write, hk, List.take_length]; simp

/-- C45 is false of the code for export: a failing export to a file that can be opened leaves it empty, whatever it held. -/
theorem C45_failed_export_destroys_file (k : Kit α) (codec : ImageCodec α) (env : FileEnv) (fs : Files) (b : Buffer α)
    (path : String) (sc : ℕ) (ho : env.canWrite path = true) (data : Bytes) (st : Status) (hst : st ≠ .kOk)
    (h : exportToString k codec b [] sc = .ok data st) :
    (exportToFile k codec env b path sc).2 = .ok st ∧ runEffects fs (exportToFile k codec env b path sc).1 path = some [] := by
  unfold exportToFile
  rw [ho, if_pos rfl, h]
  cases st with
  | kOk => exact absurd rfl hst
  | _ => exact ⟨rfl, by show (if path = path then some [] else fs path) = _; rw [if_pos rfl]⟩

/-- C64 is false of the code: `WaveletImage(n, w, h)` throws for pictures one pixel wide or high; it works exactly for pictures
with at least two pixels in each direction. -/
theorem C64_small_pictures_rejected (channels w h : ℕ) :
    (2 ≤ w ∧ 2 ≤ h → ∃ b : Buffer α, imageOf channels w h = .ok b ∧ b.params = ⟨[w, h], channels, 0, 1⟩ ∧ b.isEmpty = true) ∧
    (¬ (2 ≤ w ∧ 2 ≤ h) → (imageOf channels w h : Outcome (Buffer α)) = .throw) := by
  have hv : ValidParams ⟨[w, h], channels, 0, 1⟩ ↔ 2 ≤ w ∧ 2 ≤ h := by
    unfold ValidParams
    simp only [List.length_cons, List.length_nil, List.mem_cons, List.not_mem_nil, or_false, forall_eq_or_imp, forall_eq]
    simp
    omega
  have hr : RepresentableType ⟨[w, h], channels, 0, 1⟩ := by unfold RepresentableType; norm_num
  obtain ⟨h1, h2⟩ := C01_constructor_accepts_exactly_valid (α := α) ⟨[w, h], channels, 0, 1⟩ hr
  constructor
  · intro h
    obtain ⟨b, e1, e2, e3, -⟩ := h1 (hv.2 h)
    exact ⟨b, e1, e2, e3⟩
  · intro h
    exact h2 (fun hc => h (hv.1 hc))

/-- C64, part that holds: `WaveletImage(n, w, h)` gives an empty image of that size for every picture with at least two pixels in each
direction. Missing: pictures one pixel wide or high (`C64_small_pictures_rejected`). -/
theorem C64_pictures_partial (channels w h : ℕ) (hw : 2 ≤ w) (hh : 2 ≤ h) :
    ∃ b : Buffer α, imageOf channels w h = .ok b ∧ b.params.shape = [w, h] ∧ b.params.signalNumber = channels ∧ b.isEmpty = true := by
  obtain ⟨b, e1, e2, e3⟩ := (C64_small_pictures_rejected (α := α) channels w h).1 ⟨hw, hh⟩
  exact ⟨b, e1, by rw [e2], by rw [e2], e3⟩

end

/-- C46, part that holds: if all bytes reach the file, `Save` reports `kOk`, touches no other file, and `Load` returns an image with
the same buffer, bit for bit. Missing: writes that are cut short (`C46_cut_write_unnoticed`) and crashes
(`C46_crash_loses_file`). -/
theorem C46_save_load_partial (e : Ext) (M : ℕ) (env : FileEnv) (fs : Files) (b : Buffer F32) (path : String) (hb : WellFormed b)
    (hf : FitsFormat b) (hM : Room e M) (hm : FitsMemory b M) (ho : env.canWrite path = true) (hr : env.canRead path = true)
    (hall : ∀ data, env.kept path data = data.length) :
    ∃ effects data, saveImageFile e env b path = (effects, .ok .kOk) ∧ runEffects fs effects path = some data ∧
      (∀ q, q ≠ path → runEffects fs effects q = fs q) ∧
      (data.length ≤ M → loadImageFile e env (runEffects fs effects) path = .ok (some b)) := by
  obtain ⟨data, h1, h2⟩ := C27_uncompressed_round_trip e M b [] hb hf hM hm
  have hw : runEffects fs (.create path :: writeData env path data) = fun q => if q = path then some data else fs q := by
    unfold writeData
    rw [hall, List.take_length]
    exact runEffects_write fs path data
  refine ⟨.create path :: writeData env path data, data, ?_, ?_, ?_, ?_⟩
  · unfold saveImageFile
    rw [ho, if_pos rfl, h1]
  · rw [hw]; simp
  · intro q hq; rw [hw]; simp [hq]
  · intro hl
    unfold loadImageFile readFile
    rw [hr, if_pos rfl, hw]
    simp only [if_true]
    exact h2 hl

/-- C46 is false of the code when fewer bytes reach the file: `Save` still reports `kOk`, and `Load` finds nothing or, if the cut is in
the header, has undefined behaviour; it never returns the image. -/
theorem C46_cut_write_unnoticed (e : Ext) (M : ℕ) (env : FileEnv) (fs : Files) (b : Buffer F32) (path : String) (hb : WellFormed b)
    (hf : FitsFormat b) (hM : Room e M) (hm : FitsMemory b M) (hch : 0 < b.params.signalNumber) (ho : env.canWrite path = true)
    (hr : env.canRead path = true) (hcut : ∀ data, env.kept path data < data.length ∨ data = [])
    (hlen : ∀ data, serialize e b [] 0 = .ok (true, data) → data.length ≤ M) :
    ∃ effects, saveImageFile e env b path = (effects, .ok .kOk) ∧
      (loadImageFile e env (runEffects fs effects) path = .ok none ∨ loadImageFile e env (runEffects fs effects) path = .ub) := by
  obtain ⟨data, h1, h2⟩ := C27_uncompressed_round_trip e M b [] hb hf hM hm
  refine ⟨.create path :: writeData env path data, ?_, ?_⟩
  · unfold saveImageFile
    rw [ho, if_pos rfl, h1]
  have hw : runEffects fs (.create path :: writeData env path data) path = some (data.take (env.kept path data)) := by
    unfold writeData
    rw [runEffects_write]; simp
  have hload : loadImageFile e env (runEffects fs (.create path :: writeData env path data)) path =
      parse e (data.take (env.kept path data)) := by
    unfold loadImageFile readFile
    rw [hr, if_pos rfl, hw]
  rw [hload]
  have hwr : Writable e (fun _ x => x) b 0 := Or.inl rfl
  have hne : data ≠ [] := by
    rintro rfl
    have h3 := h2 (by simp)
    have h4 := C31_cut_header_undefined e (fun _ x => x) M 0 0 b [] [] hb hf hM hm hwr h1 (by simp) (by omega)
    rw [List.take_nil, h3, if_neg (by omega)] at h4
    cases h4
  have hk := (hcut data).resolve_right hne
  by_cases hh : env.kept path data < 30 + 8 * b.params.shape.length
  · right
    rw [C31_cut_header_undefined e (fun _ x => x) M 0 _ b data [] hb hf hM hm hwr h1 (hlen data h1) hh, if_neg (by omega)]
  · left
    exact C31_cut_body_rejected_partial e (fun _ x => x) M 0 _ b data [] hb hf hM hm hwr h1 (hlen data h1) (by omega) hk

/-- C46 is false of the code across crashes: right after opening, the previous contents are gone and the new ones not yet there. -/
theorem C46_crash_loses_file (e : Ext) (env : FileEnv) (fs : Files) (b : Buffer F32) (path : String) (ho : env.canWrite path = true) :
    runEffects fs ((saveImageFile e env b path).1.take 1) path = some [] := by
  have h : (saveImageFile e env b path).1.take 1 = [.create path] := by
    unfold saveImageFile
    rw [ho, if_pos rfl]
    cases serialize e b [] 0 with
    | throw => rfl
    | ub => rfl
    | ok r => obtain ⟨g, data⟩ := r; cases g <;> rfl
  rw [h]
  show (if path = path then some [] else fs path) = _
  rw [if_pos rfl]

/-- C63: importing a JPEG picture (RGB or gray) into an image of its size and exporting it again hands the JPEG library the pixels
that it produced, for every IEEE rounding of the pixel conversions and every transform that reconstructs (no wavelet, no steps, or an
orthonormal filter in exact arithmetic). -/
theorem C63_pixels_survive_import_export (r : Rounding) (hr : r.IEEE) (load : Bytes → Outcome CImg)
    (save : CImg → ℕ → ℤ → Outcome Bytes) (kind : CodecKind) (hkind : kind ≠ .hsl) (quality : ℤ) (k : Kit ℝ) (b : Buffer ℝ)
    (hb : WellFormed b) (hk : FilterPresent k b.params) (ho : b.params.wtype ≠ 0 → EvenShiftOrthonormal (scalingFilter k b.params))
    (hn : b.params.signalNumber = kind.needs) (blob old : Bytes) (hblob : blob ≠ []) (img : CImg) (hload : load blob = .ok img)
    (hs : kind.needs ≤ img.spectrum) (hsh : b.params.shape = [img.width, img.height]) (hw : 0 < img.width) (hh : 0 < img.height) :
    ∃ d img', importFromString k (jpegCodec (codeExt r load save) kind quality) b blob nullDenoiser 0 = .ok d .kOk ∧
      img'.width = img.width ∧ img'.height = img.height ∧ img'.spectrum = kind.needs ∧
      (∀ x < img.width, ∀ y < img.height, ∀ c < kind.needs, img'.at x y c = img.at x y c) ∧
      ∀ out, save img' ((kind.needs * img.height * img.width + 1000) % 2 ^ 32) quality = .ok out →
        exportToString k (jpegCodec (codeExt r load save) kind quality) ⟨b.params, d⟩ old 0 = .ok out .kOk := by
  set e := codeExt r load save with he
  have hneeds : kind.needs = 1 ∨ kind.needs = 3 := by cases kind <;> simp [CodecKind.needs]
  have hcn : kind.channels = kind.needs := by cases kind <;> rfl
  -- decode
  choose hl hhl using fun a b c => (show ∃ o, e.rgbHsl (e.ofPx a) (e.ofPx b) (e.ofPx c) = .ok o from by
    have unit : ∀ a, 0 ≤ ofPixel r a ∧ ofPixel r a ≤ 1 := fun a =>
      ⟨(pixel_back hr a.toNat a.toNat_lt).1, (pixel_back hr a.toNat a.toNat_lt).2.1⟩
    obtain ⟨h, s, l, e, -⟩ := rgb_round_trip (unit a) (unit b) (unit c)
    exact ⟨_, e⟩)
  obtain ⟨im, d1, d2, d3, d4, d5⟩ := C44_decode e (fun x y z => match e.rgbHsl x y z with | .ok o => o | _ => (x, y, z))
    (fun a b c => by rw [hhl]) kind blob [] 0 (by norm_num) hblob img hload hs
  rw [List.length_nil, Nat.zero_max, Nat.zero_add] at d2
  have hent : ∀ i m, im[i]? = some m → m.rows = img.height ∧ m.cols = img.width ∧ i < kind.needs ∧
      ∀ y < img.height, ∀ x < img.width, ∃ p, img.at x y i = .ok p ∧ m.get y x = e.ofPx p := by
    intro i m hm
    have hi : i < im.length := (List.getElem?_eq_some_iff.1 hm).1
    rw [d2] at hi
    obtain ⟨m', e1, e2, e3, e4⟩ := d5 i hi
    rw [Nat.zero_add, hm] at e1
    cases e1
    refine ⟨e2, e3, hi, ?_⟩
    intro y hy x hx
    obtain ⟨px, p1, p2⟩ := e4 y hy x hx
    refine ⟨px i, p1 i hi, ?_⟩
    rw [p2]
    cases kind with
    | hsl => exact absurd rfl hkind
    | rgb => rfl
    | gray => rfl
  have hshape : ∀ m ∈ im, HasShape b.params.shape m := by
    intro m hm
    obtain ⟨i, hi⟩ := List.getElem?_of_mem hm
    obtain ⟨e1, e2, -⟩ := hent i m hi
    rw [hsh]; exact ⟨e1, e2⟩
  have hsig : IsSignal b.params im := ⟨by rw [d2, hn], hshape⟩
  -- decompose and compose
  obtain ⟨d, g1, g2⟩ := C08_perfect_reconstruction_2D k b hb hk (by rw [hsh]; rfl) ho (by rw [hn]; omega) im hsig
  have hview : (View.mk (0 : ℕ) (im.length : ℕ) false).decompose k b im nullDenoiser = .ok d true := by
    unfold View.decompose View.checkRange
    have e1 : -2 ^ 31 ≤ ((0 : ℕ) : ℤ) + (im.length : ℤ) ∧ ((0 : ℕ) : ℤ) + (im.length : ℤ) < 2 ^ 31 := by
      rw [d2]; constructor <;> omega
    have e2 : (0 ≤ ((0 : ℕ) : ℤ) + (im.length : ℤ) ∧ ((0 : ℕ) : ℤ) + (im.length : ℤ) ≤ (b.params.signalNumber : ℤ)) := by
      rw [d2, hn]; constructor <;> omega
    simp only [if_pos e1, e2, and_self, decide_true, Run.lift_ok, Run.bind_ok, if_true]
    rw [d2, ← hn]
    exact g1
  -- encode
  have hE : Encodable kind im 0 img.height img.width := by
    refine ⟨by omega, by omega, ?_⟩
    intro c hc
    obtain ⟨m', e1, e2, e3, e4⟩ := d5 c hc
    exact ⟨m', e1, e2, e3⟩
  choose tp htp using (C43_clamped_and_monotone r hr).1
  obtain ⟨img', i1, i2, i3, i4, i5, -⟩ := C44_encode_accepts e tp hslToRgb kind quality im old 0 img.height
    img.width (by norm_num) hE (fun _ _ _ _ _ _ => htp _) (fun _ _ _ _ _ => rfl)
  refine ⟨d, img', ?_, i1, i2, i3, ?_, ?_⟩
  · rw [import_start k (jpegCodec e kind quality) b blob nullDenoiser 0 im d1 (toInt32_nat (by norm_num)) (toInt32_nat (by omega))]
    rw [hview]; rfl
  · intro x hx y hy c hc
    rw [i4 x hx y hy c hc]
    obtain ⟨m', e1, e2, e3, e4⟩ := d5 c hc
    obtain ⟨-, -, -, e5⟩ := hent (0 + c) m' e1
    obtain ⟨p, p1, p2⟩ := e5 y hy x hx
    rw [Nat.zero_add] at p1
    have hcs : colourSample kind hslToRgb im 0 y x c = e.ofPx p := by
      rw [← p2]
      cases kind with
      | hsl => exact absurd rfl hkind
      | rgb => simp only [colourSample, sampleAt, List.getD, e1, Option.getD_some]
      | gray => simp only [colourSample, sampleAt, List.getD, e1, Option.getD_some]
    rw [hcs, p1]
    have h1 := C43_pixels_survive r hr p
    have h2 := htp (e.ofPx p)
    rw [show toPixel r (e.ofPx p) = .ok p from h1] at h2
    exact h2.symm
  · intro out hout
    have henc := i5 out (by rw [d2]; exact hout)
    have hexp := (C45_export_to_string k (jpegCodec e kind quality) ⟨b.params, d⟩ old 0 (by
      show 0 + kind.channels < _; rw [hcn]; omega)).2 im (by show 0 + kind.channels ≤ b.params.signalNumber; rw [hcn, hn]; omega) g2
    apply hexp.1 out
    show codecEncode e kind quality ((im.drop 0).take kind.channels) old 0 = _
    rw [List.drop_zero, hcn, ← d2, List.take_length]
    exact henc

/-- The code's Haar wavelet and the identity transform satisfy C63's hypotheses for a 4×2 picture in three channels. -/
example : let p : Params := ⟨[4, 2], 3, 1, 1⟩
    let b : Buffer ℝ := ⟨p, List.replicate 3 (List.replicate 4 Mat.empty)⟩
    WellFormed b ∧ FilterPresent codeKit p ∧ EvenShiftOrthonormal (scalingFilter codeKit p) ∧
    b.params.signalNumber = CodecKind.rgb.needs := by
  refine ⟨⟨?_, rfl, ?_⟩, codeKit_present (by decide), haar_ortho _ rfl, rfl⟩
  · simp [ValidParams]
  · simp [subbandCount, detailsPerStep]

private def imKit : Kit ℤ := ⟨fun o => if o = 1 then [1, 1] else [], id, fun _ _ x => x⟩

/-- C45 on a codec that decodes everything to one 1×2 picture: accepted by an image of that size. -/
example : let codec : ImageCodec ℤ := ⟨1, fun _ => .ok (true, [⟨1, 2, [5, 6], rfl⟩]), fun _ _ => .ok [] true⟩
    let b : Buffer ℤ := ⟨⟨[2, 1], 2, 0, 0⟩, [[Mat.empty], [Mat.empty]]⟩
    importFromString imKit codec b [7] nullDenoiser 1 = .ok [[Mat.empty], [⟨1, 2, [5, 6], rfl⟩]] .kOk ∧
    importFromString imKit codec b [7] nullDenoiser 2 = .ok b.decs .kDecompositionError := ⟨rfl, rfl⟩

/-- C45: a three-channel export of a two-channel image fails and destroys the file. -/
example : let codec : ImageCodec ℤ := ⟨3, fun _ => .ok (false, []), fun _ _ => .ok [] true⟩
    let b : Buffer ℤ := ⟨⟨[2, 1], 2, 0, 0⟩, [[Mat.empty], [Mat.empty]]⟩
    let env : FileEnv := ⟨fun _ => true, fun _ => true, fun _ d => d.length⟩
    (exportToFile imKit codec env b "a.jpg" 0).2 = .ok .kCompositionError ∧
    runEffects (fun _ => some [1, 2, 3]) (exportToFile imKit codec env b "a.jpg" 0).1 "a.jpg" = some [] := ⟨rfl, rfl⟩

end WB.Props

import Verif.Model.FloatBits

/-!
The transform on bit patterns with the order of every sum left open, and with fused multiply-add allowed. A sum of products is kept as the list of its terms;
it is evaluated, in an order chosen freely for every sum, when a value is needed.
-/

namespace WB

open Spec

/-- `FloatOps` on a machine that can multiply and add with one rounding. A compiler may use it where sources/wavelet.cc:340-341 and 383-384 and the loops of
Blaze behind sources/wavelet.cc:285 and 293 multiply and add (`-ffp-contract`). -/
structure FusedOps extends FloatOps where
  fma : F32 → F32 → F32 → F32

/-- IEEE 754, as `FloatOps.Correct`; `fma x y z` is `x y + z`, rounded once. -/
structure FusedOps.Correct (o : FusedOps) (r : Rounding) : Prop extends o.toFloatOps.Correct r where
  fma : ∀ x y z, finiteBits x → finiteBits y → finiteBits z → |r.toFloat ((number x : ℝ) * number y + number z)| ≤ maxFloat →
    finiteBits (o.fma x y z) ∧ (number (o.fma x y z) : ℝ) = r.toFloat ((number x : ℝ) * number y + number z)

/-- Where a number comes from. No value depends on it; it lets the order of a sum depend on its place, as it does when a loop has a remainder that does not
fill a vector register. -/
inductive Origin where
  | fixed
  | stored (place : List ℕ)
  | both (a b : Origin)

/-- What is added: a stored number or a product. -/
inductive Term where
  | val (x : F32) (w : Origin)
  | prod (x y : F32) (w : Origin)

/-- The origin of a term. -/
def Term.origin : Term → Origin
  | val _ w => w
  | prod _ _ w => w

/-- A way to compute a sum: brackets and order of the additions, which of them are fused with the multiplication of a term, and zeros to start from. -/
inductive Plan where
  | zero
  | term (j : ℕ)
  | add (l r : Plan)
  | fma (j : ℕ) (t : Plan)

namespace Plan

/-- The terms in use, from left to right. -/
def uses : Plan → List ℕ
  | zero => []
  | term j => [j]
  | add l r => l.uses ++ r.uses
  | fma j t => j :: t.uses

/-- The sum of `ts`, computed as planned. -/
def eval (o : FusedOps) (ts : List Term) : Plan → F32
  | zero => 0#32
  | term j => match ts.getD j (.val 0#32 .fixed) with
    | .val x _ => x
    | .prod x y _ => o.mul x y
  | add l r => o.add (l.eval o ts) (r.eval o ts)
  | fma j t => match ts.getD j (.val 0#32 .fixed) with
    | .val x _ => o.add x (t.eval o ts)
    | .prod x y _ => o.fma x y (t.eval o ts)

/-- One term after the other, from the left, starting with zero, nothing fused: the loops as they are written. -/
def inOrder : ℕ → Plan
  | 0 => zero
  | n + 1 => add (inOrder n) (term n)

end Plan

/-- How sums are computed: a plan for every list of terms, in which every term is used once. -/
structure SumPlan where
  plan : List Term → Plan
  once : ∀ ts, (plan ts).uses.Perm (List.range ts.length)

/-- Sums whose value is not yet computed. -/
def Sums (_o : FusedOps) (_s : SumPlan) : Type := List Term

namespace Sums
variable {o : FusedOps} {s : SumPlan}

/-- A stored number. -/
def of (x : F32) (w : Origin) : Sums o s := [Term.val x w]

/-- The value of a sum. A stored number has no computation left. -/
def value : Sums o s → F32
  | [] => 0#32
  | [Term.val x _] => x
  | ts => (s.plan ts).eval o ts

/-- The origins of all terms. -/
def origin (x : Sums o s) : Origin := List.foldr (fun (t : Term) a => .both t.origin a) .fixed x

instance : Zero (Sums o s) := ⟨([] : List Term)⟩
instance : Add (Sums o s) := ⟨fun x y => List.append (α := Term) x y⟩
instance : Mul (Sums o s) := ⟨fun x y => ([Term.prod x.value y.value (.both x.origin y.origin)] : List Term)⟩
instance : Neg (Sums o s) := ⟨fun x => of (o.neg x.value) x.origin⟩
instance : Inhabited (Sums o s) := ⟨of default .fixed⟩

end Sums

/-- `bitsKit` for sums: what is stored has been evaluated. -/
noncomputable def sumsKit (r : Rounding) (o : FusedOps) (s : SumPlan) : Kit (Sums o s) where
  dbwavf t := (dbCoeffs t).map (fun q : ℚ => Sums.of (o.store (r.toDouble (q : ℝ))) .fixed)
  mulSqrt2 x := Sums.of (o.store (r.toDouble (r.toDouble (Real.sqrt 2) * (number x.value : ℝ)))) x.origin
  divFactor flag k x := Sums.of (o.div flag k x.value) x.origin

/-- Samples as sums; the samples of the matrix at `w` come from the places `w, 0`, `w, 1` and so on. -/
def liftMat (o : FusedOps) (s : SumPlan) (w : List ℕ) (m : Mat F32) : Mat (Sums o s) :=
  ⟨m.rows, m.cols, m.data.mapIdx fun k x => Sums.of x (.stored (w ++ [k])), by rw [List.length_mapIdx]; exact m.wf⟩

/-- Coefficients as sums. -/
def liftDecs (o : FusedOps) (s : SumPlan) (d : Decs F32) : Decs (Sums o s) := d.mapIdx fun c ch => ch.mapIdx fun i m => liftMat o s [c, i] m

/-- The values of a matrix of sums. -/
def settle {o : FusedOps} {s : SumPlan} (m : Mat (Sums o s)) : Mat F32 := m.map Sums.value

/-- `Impl::Decompose(const SignalN2D&)`, sources/wavelet_buffer.cc:96-100, without denoiser, the sums computed as `s` says. -/
noncomputable def Buffer.decomposeBy (r : Rounding) (o : FusedOps) (s : SumPlan) (b : Buffer F32) (data : List (Mat F32)) : Run (Decs F32) Bool :=
  match (Buffer.mk b.params (liftDecs o s b.decs)).decompose (sumsKit r o s) (data.mapIdx fun c m => liftMat o s [c] m) nullDenoiser with
  | .ok d x => .ok (d.map (List.map settle)) x
  | .throw d => .throw (d.map (List.map settle))
  | .ub => .ub

/-- `Impl::Compose(SignalN2D*)`, sources/wavelet_buffer.cc:121-124, the sums computed as `s` says. -/
noncomputable def Buffer.composeBy (r : Rounding) (o : FusedOps) (s : SumPlan) (b : Buffer F32) (scale : ℤ) : Outcome (List (Mat F32)) :=
  match (Buffer.mk b.params (liftDecs o s b.decs)).compose (sumsKit r o s) scale with
  | .ok ms => .ok (ms.map settle)
  | .throw => .throw
  | .ub => .ub

end WB

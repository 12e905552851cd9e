import Verif.Model.Crew

/-!
Threads on one buffer when memory runs out: any operation that allocates may throw `std::bad_alloc` instead of doing its work,
at any moment and in any thread. The same steps describe an exception that a denoiser throws.

What an exception does on its way out: `std::lock_guard` releases the mutexes of the cache
(sources/wavelet_utils.cc:39 and 70), `std::map::insert` of one element has no effect when it throws (standard guarantee for
`std::map`), the matrices under construction are lost. A subband whose assignment throws is left as some matrix, not necessarily
the old one: only this much is assumed of Blaze.
-/

namespace WB

variable {α : Type} {n : ℕ}

/-- Memory runs out in a step of thread `i` in the cache; `none` for steps that allocate nothing: locking, looking up, unlocking. -/
def Shared.fail (s : Shared α n) (i : Fin n) : Option (Shared α n) :=
  match (s.threads i).pc with
  | .build p nested => some (s.goto i (.unlockMain p nested .throw))          -- sources/wavelet_utils.cc:46-56
  | .insertMain p nested _ => some (s.goto i (.unlockMain p nested .throw))   -- line 58, before the node is in the map
  | .copyMain _ nested _ =>                                                   -- line 262 or 78
    if nested then some (s.goto i (.unlockTrans .throw)) else some (s.setThread i ((s.threads i).finish .throw))
  | .transpose _ _ => some (s.goto i (.unlockTrans .throw))                   -- lines 79-83
  | .insertTrans _ _ => some (s.goto i (.unlockTrans .throw))                 -- line 85
  | .copyTrans _ => some (s.setThread i ((s.threads i).finish .throw))        -- line 371
  | _ => none

/-- Memory runs out in thread `i`. -/
inductive Crew.Fails (s : Crew α n) (i : Fin n) : Crew α n → Prop where
  /-- in a computation before, between or after the accesses of the call, unless an exception is already on its way (sources/wavelet_utils.cc:233-297 and 361-440,
  sources/wavelet_buffer_view.cc:25-55) -/
  | between {a} : (s.hands i).doing = .inCall a → a ≠ .fail → s.Fails i (s.reply i .threw)
  /-- while a subband is assigned to (sources/wavelet_utils.cc:179-181, 205 and 292-293): some matrix is left in its place -/
  | assigning {ch idx m rest x d} : (s.hands i).doing = .inCall (.write ch idx m rest) → setSub s.decs ch idx x = .ok d () →
      s.Fails i ({ s with decs := d }.reply i .threw)
  /-- in the cache -/
  | cache {rest sh} : (s.hands i).doing = .asking rest → s.shared.fail i = some sh → s.Fails i { s with shared := sh }

end WB

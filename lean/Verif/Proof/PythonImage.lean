import Verif.Proof.Python
import Verif.Model.PythonImage

/-! Helper lemmas about the remaining Python bindings. -/

namespace WB.Py

open WB WB.Spec

theorem getElem_flatten {n : ℕ} : ∀ (vs : List (List F32)), (∀ v ∈ vs, v.length = n) → ∀ (ch : ℕ) (v : List F32) (i : ℕ),
    vs[ch]? = some v → i < n → vs.flatten[ch * n + i]? = v[i]?
  | [], _, _, _, _, h, _ => by simp at h
  | v0 :: vs, hl, ch, v, i, h, hi => by
    have h0 := hl v0 (by simp)
    cases ch with
    | zero =>
      simp only [List.getElem?_cons_zero, Option.some.injEq] at h
      subst h
      rw [List.flatten_cons, Nat.zero_mul, Nat.zero_add, List.getElem?_append_left (by omega)]
    | succ ch =>
      rw [List.getElem?_cons_succ] at h
      rw [List.flatten_cons, List.getElem?_append_right (by rw [h0, Nat.succ_mul]; omega),
        show (ch + 1) * n + i - v0.length = ch * n + i by rw [h0, Nat.succ_mul]; omega]
      exact getElem_flatten vs (fun v hv => hl v (by simp [hv])) ch v i h hi

theorem ofVecs_ok {vs : List (List F32)} {n : ℕ} (hne : vs ≠ []) (hl : ∀ v ∈ vs, v.length = n) (h1 : vs.length < 2 ^ 31) (h2 : n < 2 ^ 31) :
    ∃ a, ofVecs vs = .ok a ∧ a.shape = [vs.length, n] ∧
      ∀ (ch : ℕ) (v : List F32) (i : ℕ) (x : F32), vs[ch]? = some v → v[i]? = some x → HasElement a [ch, i] x := by
  have hrows : vs.mapM (fun v => (List.range n).mapM fun i => rd v i) = .ok vs := by
    have := Outcome.mapM_ok (l := vs) (f := fun v => (List.range n).mapM fun i => rd v i) (g := id) (fun v hv => by
      have hv := hl v hv
      have := Outcome.mapM_ok (l := List.range n) (f := fun i => rd v i) (g := fun i => v.getD i 0) (fun i hi => by
        rw [List.mem_range] at hi
        rw [rd_ok (by omega), List.getD_eq_getElem?_getD, List.getElem?_eq_getElem (by omega)]; rfl)
      rw [this]
      congr 1
      refine List.ext_getElem (by simp [hv]) fun i q1 q2 => ?_
      have q : i < v.length := q2
      simp [q])
    simpa using this
  obtain ⟨v0, rest, hvs⟩ := List.exists_cons_of_ne_nil hne
  have h0 : v0.length = n := hl v0 (by simp [hvs])
  have hun : ofVecs vs = .ok ⟨floatBytes vs.flatten, 0, [vs.length, n], [4 * n, 4], 4, true⟩ := by
    subst hvs
    unfold ofVecs
    simp only
    rw [h0, if_neg (by omega), hrows, Outcome.bind_ok]
    rfl
  refine ⟨_, hun, rfl, fun ch v i x hch hi => ?_⟩
  unfold HasElement
  rw [elementPos2 _ (4 * n) 4 rfl]
  have hvl := hl v (List.mem_of_getElem? hch)
  have hin : i < n := by rw [← hvl]; exact (List.getElem?_eq_some_iff.1 hi).1
  have hx : vs.flatten[ch * n + i]? = some x := by rw [getElem_flatten vs hl ch v i hch hin, hi]
  obtain ⟨hlt, hget⟩ := List.getElem?_eq_some_iff.1 hx
  have := floatAt_floatBytes vs.flatten (ch * n + i) hlt
  rw [hget] at this
  have := has_of_floatAt this
  simp only
  convert this using 1
  push_cast
  ring

theorem ofVec_has (v : List F32) (i : ℕ) (x : F32) (h : v[i]? = some x) :
    HasElement { mem := floatBytes v, start := 0, shape := [v.length], strides := [4], itemsize := 4, writable := true } [i] x := by
  obtain ⟨hlt, hget⟩ := List.getElem?_eq_some_iff.1 h
  have := floatAt_floatBytes v i hlt
  rw [hget] at this
  have := has_of_floatAt this
  unfold HasElement elementPos
  simpa using this

end WB.Py

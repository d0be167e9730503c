import Verif.DenseMem.Measures
import Verif.Csr.Lemmas

/-!
# The indicator matrices of the variation of information
-/

set_option linter.dupNamespace false
set_option linter.unusedSectionVars false

namespace Verif.DenseMem

open Verif.Memory

variable {K : Type} [Field K] [LinearOrder K] [IsStrictOrderedRing K]

/-- The number of nodes in the first `i` clusters. -/
def before (cs : List (List Int)) (i : Nat) : Nat := ((cs.take i).flatten).length

theorem before_zero (cs : List (List Int)) : before cs 0 = 0 := by simp [before]

theorem flatten_succ (cs : List (List Int)) (i : Nat) (hi : i < cs.length) :
    (cs.take (i + 1)).flatten = (cs.take i).flatten ++ cs[i] := by
  rw [List.take_succ_eq_append_getElem hi, List.flatten_append]
  simp

theorem before_succ (cs : List (List Int)) (i : Nat) (hi : i < cs.length) :
    before cs (i + 1) = before cs i + cs[i].length := by
  unfold before
  rw [flatten_succ cs i hi, List.length_append]

theorem before_mono (cs : List (List Int)) (i : Nat) : before cs i ≤ cs.flatten.length := by
  unfold before
  have h : cs.flatten = (cs.take i).flatten ++ (cs.drop i).flatten := by
    rw [← List.flatten_append, List.take_append_drop]
  rw [h, List.length_append]
  omega

theorem before_all (cs : List (List Int)) : before cs cs.length = cs.flatten.length := by
  simp [before]

/-- The state before cluster `i`. -/
structure BInv (cs : List (List Int)) (N i : Nat) (st : List Int × List Int) : Prop where
  fits : before cs i ≤ N
  ind : st.1 = filled N (cs.take i).flatten
  len : st.2.length = cs.length + 1
  ptr : ∀ a ≤ i, st.2[a]? = some (before cs a : Int)

/-- Writing the nodes of one cluster. -/
theorem write_ok (l done : List Int) (N : Nat) (h : done.length + l.length ≤ N) :
    loop (done.length : Int) ((done.length + l.length : Nat) : Int) (filled N done, (0 : Int)) (fun q j => (do
      let x ← rd l q.2
      let ind ← wr q.1 j x
      pure (ind, q.2 + 1) : Run (List Int × Int))) = .ok (filled N (done ++ l), (l.length : Int)) := by
  have key : ∃ r, loop (done.length : Int) ((done.length + l.length : Nat) : Int) (filled N done, (0 : Int))
      (fun q j => (do
      let x ← rd l q.2
      let ind ← wr q.1 j x
      pure (ind, q.2 + 1) : Run (List Int × Int))) = .ok r ∧
      r = (filled N (done ++ l.take (done.length + l.length - done.length)),
        ((done.length + l.length - done.length : Nat) : Int)) := by
    refine loop_inv done.length (done.length + l.length) (by omega) _ (fun j r =>
      r = (filled N (done ++ l.take (j - done.length)), ((j - done.length : Nat) : Int))) ?_ _ (by simp)
    intro j h1 h2 r hr
    obtain ⟨t, rfl⟩ : ∃ t, j = done.length + t := ⟨j - done.length, by omega⟩
    rw [show done.length + t - done.length = t by omega] at hr
    have ht : t < l.length := by omega
    have hl : (done ++ l.take t).length = done.length + t := by simp; omega
    have hw := wr_filled N (done ++ l.take t) l[t] (by omega)
    rw [hl] at hw
    rw [hr]
    rw [rd_nat l t ht, ok_bind, hw, ok_bind]
    refine ⟨_, rfl, ?_⟩
    rw [show done.length + t + 1 - done.length = t + 1 by omega, List.take_succ_eq_append_getElem ht,
      List.append_assoc]
    simp
  obtain ⟨r, e, hr⟩ := key
  rw [show done.length + l.length - done.length = l.length by omega, List.take_length] at hr
  rw [e, hr]

theorem write_err (l done : List Int) (N : Nat) (hd : done.length ≤ N) (h : N < done.length + l.length) :
    loop (done.length : Int) ((done.length + l.length : Nat) : Int) (filled N done, (0 : Int)) (fun q j => (do
      let x ← rd l q.2
      let ind ← wr q.1 j x
      pure (ind, q.2 + 1) : Run (List Int × Int))) = .error .write := by
  refine loop_fail done.length (done.length + l.length) N hd h _ (fun j r =>
      r = (filled N (done ++ l.take (j - done.length)), ((j - done.length : Nat) : Int))) .write ?_ ?_ _ (by simp)
  · intro j h1 h2 r hr
    obtain ⟨t, rfl⟩ : ∃ t, j = done.length + t := ⟨j - done.length, by omega⟩
    rw [show done.length + t - done.length = t by omega] at hr
    have ht : t < l.length := by omega
    have hl : (done ++ l.take t).length = done.length + t := by simp; omega
    have hw := wr_filled N (done ++ l.take t) l[t] (by omega)
    rw [hl] at hw
    rw [hr]
    rw [rd_nat l t ht, ok_bind, hw, ok_bind]
    refine ⟨_, rfl, ?_⟩
    rw [show done.length + t + 1 - done.length = t + 1 by omega, List.take_succ_eq_append_getElem ht,
      List.append_assoc]
    simp
  · intro r hr
    have ht : N - done.length < l.length := by omega
    have hl : (done ++ l.take (N - done.length)).length = N := by simp; omega
    have hw := wr_filled_err N (done ++ l.take (N - done.length)) l[N - done.length] hl
    rw [hl] at hw
    rw [hr]
    rw [rd_nat l _ ht, ok_bind, hw]
    rfl

/-- The part of a step before the inner loop. -/
theorem build_head (cs : List (List Int)) (N i : Nat) (hi : i < cs.length) (st : List Int × List Int)
    (h : BInv cs N i st) {β : Type} (k : List Int → List Int → Int → Int → Run β) :
    ∃ ptr : List Int, ptr.length = cs.length + 1 ∧ (∀ a ≤ i + 1, ptr[a]? = some (before cs a : Int)) ∧
    (do
      let l ← rd cs (i : Int)
      let lo ← rd st.2 (i : Int)
      let ptr ← wr st.2 ((i : Int) + 1) (lo + l.length)
      let a ← rd ptr (i : Int)
      let b ← rd ptr ((i : Int) + 1)
      k l ptr a b : Run β) = k cs[i] ptr (before cs i : Int) (before cs (i + 1) : Int) := by
  have hlo : rd st.2 (i : Int) = .ok (before cs i : Int) := by
    rw [rd_ok_iff]
    exact ⟨by omega, by simpa using h.ptr i (le_refl _)⟩
  have hw : wr st.2 ((i : Int) + 1) ((before cs i : Int) + cs[i].length) =
      .ok (st.2.set (i + 1) (before cs (i + 1) : Int)) := by
    have := wr_nat st.2 (i + 1) ((before cs i : Int) + cs[i].length) (by rw [h.len]; omega)
    rw [before_succ cs i hi]
    push_cast at this ⊢
    exact this
  have hp : ∀ a ≤ i + 1, (st.2.set (i + 1) (before cs (i + 1) : Int))[a]? = some (before cs a : Int) := by
    intro a ha
    by_cases hai : a = i + 1
    · subst hai
      simp [h.len, hi]
    · rw [List.getElem?_set_ne (fun h => hai h.symm)]
      exact h.ptr a (by omega)
  refine ⟨st.2.set (i + 1) (before cs (i + 1) : Int), by rw [List.length_set, h.len], hp, ?_⟩
  have ha : rd (st.2.set (i + 1) (before cs (i + 1) : Int)) (i : Int) = .ok (before cs i : Int) := by
    rw [rd_ok_iff]
    exact ⟨by omega, by simpa using hp i (by omega)⟩
  have hb : rd (st.2.set (i + 1) (before cs (i + 1) : Int)) ((i : Int) + 1) = .ok (before cs (i + 1) : Int) := by
    rw [rd_ok_iff]
    refine ⟨by omega, ?_⟩
    rw [show ((i : Int) + 1).toNat = i + 1 by omega]
    exact hp (i + 1) (le_refl _)
  rw [rd_nat cs i hi, ok_bind, hlo, ok_bind, hw, ok_bind, ha, ok_bind, hb, ok_bind]

theorem build_step (cs : List (List Int)) (N i : Nat) (hi : i < cs.length) (st : List Int × List Int)
    (h : BInv cs N i st) (hN : before cs (i + 1) ≤ N) :
    ∃ st', (do
      let l ← rd cs (i : Int)
      let lo ← rd st.2 (i : Int)
      let ptr ← wr st.2 ((i : Int) + 1) (lo + l.length)
      let a ← rd ptr (i : Int)
      let b ← rd ptr ((i : Int) + 1)
      let r ← loop a b (st.1, (0 : Int)) fun q j => do
        let x ← rd l q.2
        let ind ← wr q.1 j x
        pure (ind, q.2 + 1)
      pure (r.1, ptr) : Run (List Int × List Int)) = .ok st' ∧ BInv cs N (i + 1) st' := by
  obtain ⟨ptr, hl, hp, e⟩ := build_head cs N i hi st h fun l ptr a b => (do
      let r ← loop a b (st.1, (0 : Int)) fun q j => do
        let x ← rd l q.2
        let ind ← wr q.1 j x
        pure (ind, q.2 + 1)
      pure (r.1, ptr) : Run (List Int × List Int))
  have hb := before_succ cs i hi
  have hw := write_ok cs[i] (cs.take i).flatten N (by unfold before at hb hN; omega)
  have e1 : ((cs.take i).flatten.length : Int) = (before cs i : Int) := rfl
  have e2 : (((cs.take i).flatten.length + cs[i].length : Nat) : Int) = (before cs (i + 1) : Int) := by
    rw [hb]; rfl
  rw [e1, e2, ← h.ind] at hw
  refine ⟨(filled N (cs.take (i + 1)).flatten, ptr), ?_, hN, rfl, hl, hp⟩
  rw [e, hw, ok_bind, flatten_succ cs i hi]
  rfl

theorem build_fail (cs : List (List Int)) (N i : Nat) (hi : i < cs.length) (st : List Int × List Int)
    (h : BInv cs N i st) (hN : N < before cs (i + 1)) :
    (do
      let l ← rd cs (i : Int)
      let lo ← rd st.2 (i : Int)
      let ptr ← wr st.2 ((i : Int) + 1) (lo + l.length)
      let a ← rd ptr (i : Int)
      let b ← rd ptr ((i : Int) + 1)
      let r ← loop a b (st.1, (0 : Int)) fun q j => do
        let x ← rd l q.2
        let ind ← wr q.1 j x
        pure (ind, q.2 + 1)
      pure (r.1, ptr) : Run (List Int × List Int)) = .error .write := by
  obtain ⟨ptr, hl, hp, e⟩ := build_head cs N i hi st h fun l ptr a b => (do
      let r ← loop a b (st.1, (0 : Int)) fun q j => do
        let x ← rd l q.2
        let ind ← wr q.1 j x
        pure (ind, q.2 + 1)
      pure (r.1, ptr) : Run (List Int × List Int))
  have hb := before_succ cs i hi
  have hf := h.fits
  have hw := write_err cs[i] (cs.take i).flatten N hf (by unfold before at hb hN; omega)
  have e1 : ((cs.take i).flatten.length : Int) = (before cs i : Int) := rfl
  have e2 : (((cs.take i).flatten.length + cs[i].length : Nat) : Int) = (before cs (i + 1) : Int) := by
    rw [hb]; rfl
  rw [e1, e2, ← h.ind] at hw
  rw [e, hw]
  rfl

theorem BInv.zero (cs : List (List Int)) (N : Nat) :
    BInv cs N 0 (List.replicate N 0, List.replicate (cs.length + 1) 0) := by
  refine ⟨by simp [before], by simp [filled], by simp, ?_⟩
  intro a ha
  obtain rfl : a = 0 := by omega
  simp [before]

theorem buildRun_ok (cs : List (List Int)) (N : Nat) (h : cs.flatten.length ≤ N) :
    ∃ m, buildRun cs N = .ok m ∧ BInv cs N cs.length m := by
  refine loop_inv 0 cs.length (Nat.zero_le _) _ (fun i st => BInv cs N i st) ?_ _ (BInv.zero cs N)
  intro i _ hi st hst
  exact build_step cs N i hi st hst (le_trans (before_mono cs (i + 1)) h)

theorem buildRun_err (cs : List (List Int)) (N : Nat) (h : N < cs.flatten.length) :
    buildRun cs N = .error .write := by
  -- the first cluster that does not fit
  have hex : ∃ i, N < before cs (i + 1) := by
    refine ⟨cs.length, ?_⟩
    unfold before
    rw [List.take_of_length_le (by omega)]
    exact h
  classical
  obtain ⟨m, hm, hmin⟩ : ∃ m, N < before cs (m + 1) ∧ ∀ i < m, before cs (i + 1) ≤ N :=
    ⟨Nat.find hex, Nat.find_spec hex, fun i hi => Nat.le_of_not_lt (Nat.find_min hex hi)⟩
  have hml : m < cs.length := by
    by_contra hc
    have h1 : before cs (m + 1) = cs.flatten.length := by
      unfold before; rw [List.take_of_length_le (by omega)]
    by_cases h0 : cs.length = 0
    · have : cs = [] := List.length_eq_zero_iff.1 h0
      subst this
      simp at h
    · have h2 := hmin (cs.length - 1) (by omega)
      rw [show cs.length - 1 + 1 = cs.length by omega, before_all] at h2
      omega
  refine loop_fail 0 cs.length m (Nat.zero_le _) hml _ (fun i st => BInv cs N i st) .write ?_ ?_ _ (BInv.zero cs N)
  · intro i _ hi st hst
    exact build_step cs N i (by omega) st hst (hmin i hi)
  · intro st hst
    exact build_fail cs N m hml st hst hm

/-- The slice of a cluster. -/
theorem slice_cluster (cs : List (List Int)) (N i : Nat) (hi : i < cs.length) (h : cs.flatten.length ≤ N) :
    slice (filled N cs.flatten) (before cs i : Int) (before cs (i + 1) : Int) = cs[i] := by
  unfold slice filled
  have h1 := before_succ cs i hi
  have h2 := before_mono cs (i + 1)
  have h3 := Csr.slice_flatten cs i hi
  change (cs.flatten.drop (before cs i)).take (before cs (i + 1) - before cs i) = cs[i] at h3
  simp only [Int.toNat_natCast]
  rw [List.drop_append_of_le_length (by omega), List.take_append_of_le_length]
  · exact h3
  · rw [List.length_drop]; omega

/-! ## The common nodes -/

theorem mergeRun_eq (a b : List Int) : ∀ (n i j len : Nat), a.length - i + (b.length - j) ≤ n →
    mergeRun a b n (i : Int) (j : Int) len = .ok (Info.mergeLength (a.drop i) (b.drop j) len) := by
  intro n
  induction n with
  | zero =>
    intro i j len h
    unfold mergeRun
    rw [List.drop_of_length_le (by omega), List.drop_of_length_le (by omega)]
    unfold Info.mergeLength
    rfl
  | succ n ih =>
    intro i j len h
    unfold mergeRun
    by_cases hi : i < a.length
    · by_cases hj : j < b.length
      · rw [if_pos ⟨by omega, by omega⟩, rd_nat a i hi, rd_nat b j hj]
        have ei : ((i : Int) + 1) = ((i + 1 : Nat) : Int) := by push_cast; rfl
        have ej : ((j : Int) + 1) = ((j + 1 : Nat) : Int) := by push_cast; rfl
        rw [List.drop_eq_getElem_cons hi, List.drop_eq_getElem_cons hj]
        rw [Info.mergeLength]
        simp only []
        rw [ei, ej]
        split
        · rw [ih (i + 1) (j + 1) (len + 1) (by omega)]
        · split
          · rw [ih (i + 1) j len (by omega), List.drop_eq_getElem_cons hj]
          · rw [ih i (j + 1) len (by omega), List.drop_eq_getElem_cons hi]
      · rw [if_neg (fun h2 => hj (by omega)), List.drop_of_length_le (l := b) (by omega)]
        cases a.drop i <;> (unfold Info.mergeLength; rfl)
    · rw [if_neg (fun h2 => hi (by omega)), List.drop_of_length_le (l := a) (by omega)]
      cases b.drop j <;> (unfold Info.mergeLength; rfl)

theorem interRun_ok (a b : List Int) : interRun a b = .ok (Info.indicesIntersection a b) := by
  unfold interRun Info.indicesIntersection
  have h1 : (Info.sortInts a).length = a.length := (Info.sortInts_perm a).length_eq
  have h2 : (Info.sortInts b).length = b.length := (Info.sortInts_perm b).length_eq
  have := mergeRun_eq (Info.sortInts a) (Info.sortInts b) (a.length + b.length) 0 0 0 (by omega)
  simpa using this

/-! ## The double sum -/

/-- The term of a pair of clusters. -/
def matTerm (lg : K → K) (a b : List Int) : K :=
  if 0 < Info.indicesIntersection a b then
    (Info.indicesIntersection a b : K) * lg ((Info.indicesIntersection a b : K) ^ 2 / ((a.length : K) * (b.length : K)))
  else 0

theorem foldl_sub' {α : Type} (f : α → K) : ∀ (l : List α) (v : K), l.foldl (fun v x => v - f x) v = v - (l.map f).sum
  | [], v => by simp
  | a :: l, v => by
    rw [List.foldl_cons, foldl_sub' f l]
    simp only [List.map_cons, List.sum_cons]
    ring

theorem nviMatRun_ok (lg : K → K) (cs1 cs2 : List (List Int)) (N : Nat) (h1 : cs1.flatten.length ≤ N)
    (h2 : cs2.flatten.length ≤ N) :
    nviMatRun lg cs1 cs2 N =
      .ok (-(cs1.map fun a => (cs2.map fun b => matTerm lg a b).sum).sum / ((N : K) * lg (N : K))) := by
  obtain ⟨m1, e1, b1⟩ := buildRun_ok cs1 N h1
  obtain ⟨m2, e2, b2⟩ := buildRun_ok cs2 N h2
  unfold nviMatRun
  rw [e1, ok_bind, e2, ok_bind]
  have rd1 : ∀ i, i ≤ cs1.length → rd m1.2 (i : Int) = .ok (before cs1 i : Int) := by
    intro i hi
    rw [rd_ok_iff]
    exact ⟨by omega, by simpa using b1.ptr i hi⟩
  have rd2' : ∀ i, i ≤ cs2.length → rd m2.2 (i : Int) = .ok (before cs2 i : Int) := by
    intro i hi
    rw [rd_ok_iff]
    exact ⟨by omega, by simpa using b2.ptr i hi⟩
  have i1 := b1.ind
  have i2 := b2.ind
  rw [List.take_length] at i1 i2
  rw [loop_zero]
  rw [foldlM_range cs1 _ (fun v a => .ok (v - (cs2.map fun b => matTerm lg a b).sum)) 0]
  · rw [foldlM_pure, ok_bind, foldl_sub', zero_sub]
    rfl
  · intro i hi v
    have r2 := rd1 (i + 1) (by omega)
    push_cast at r2
    rw [rd1 i (by omega), ok_bind, r2, ok_bind, loop_zero]
    rw [foldlM_range cs2 _ (fun v b => .ok (v - matTerm lg cs1[i] b)) v]
    · rw [foldlM_pure, foldl_sub']
    · intro j hj v
      have r4 := rd2' (j + 1) (by omega)
      push_cast at r4
      rw [rd2' j (by omega), ok_bind, r4, ok_bind, i1, i2, slice_cluster cs1 N i hi h1, slice_cluster cs2 N j hj h2,
        interRun_ok, ok_bind]
      unfold matTerm
      have l1 : (((before cs1 (i + 1) : Int) - (before cs1 i : Int) : Int) : K) = (cs1[i].length : K) := by
        rw [before_succ cs1 i hi]; push_cast; ring
      have l2 : (((before cs2 (j + 1) : Int) - (before cs2 j : Int) : Int) : K) = (cs2[j].length : K) := by
        rw [before_succ cs2 j hj]; push_cast; ring
      rw [l1, l2]
      split
      · rfl
      · rw [sub_zero]; rfl

theorem nviMatRun_err (lg : K → K) (cs1 cs2 : List (List Int)) (N : Nat)
    (h : N < cs1.flatten.length ∨ N < cs2.flatten.length) : nviMatRun lg cs1 cs2 N = .error .write := by
  unfold nviMatRun
  by_cases h1 : N < cs1.flatten.length
  · rw [buildRun_err cs1 N h1]
    rfl
  · obtain ⟨m1, e1, _⟩ := buildRun_ok cs1 N (by omega)
    rw [e1, ok_bind, buildRun_err cs2 N (by omega)]
    rfl

end Verif.DenseMem

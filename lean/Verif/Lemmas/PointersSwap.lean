import Verif.Lemmas.PointersRight
/- The word iterators that `swap_ranges` forms. -/
namespace BitLib
namespace Ptr
variable {w : Nat} {α β : Type}

theorem f_mk (a : Int) (pos : Nat) : Fits (up (BitIter.mk? a pos : M w (BitIter w))) (BitIter.mk? a pos) fun r => r = ⟨a, pos⟩ ∧ pos < w := by
  refine f_upP fun m r m' h => ?_
  unfold BitIter.mk? assertM at h
  by_cases hp : pos < w
  · rw [if_pos (by simpa using hp)] at h
    cases h
    exact ⟨rfl, hp⟩
  · rw [if_neg (by simpa using hp)] at h
    cases h

theorem f_swapLoop {A B : Arr} {S : ShiftSem w} {lastBase : Int} {pos2 : Nat} (hw : 0 < w) (hlast : lastBase ≤ A.hi) : ∀ (fuel : Nat) (it1 it2 : Int),
    A.lo ≤ it1 → it1 ≤ lastBase → B.lo ≤ it2 → it2 * w + pos2 + (lastBase - it1) * w ≤ B.hi * w →
    Fits (swapLoop A B S lastBase pos2 fuel it1 it2) (BitLib.swapLoop S lastBase pos2 fuel it1 it2)
      fun r => r.1 = lastBase ∧ r.2 = it2 + (lastBase - it1) := by
  intro fuel
  induction fuel with
  | zero => intro it1 it2 _ _ _ _; exact f_upP fun m r m' h => by cases h
  | succ fuel ih =>
    intro it1 it2 h1 h2 h3 h4
    unfold Ptr.swapLoop BitLib.swapLoop
    refine f_ite (fun hc => ?_) fun hc => f_pure ⟨by simp only; omega, by simp only; omega⟩
    rw [Int.sub_mul] at h4
    have hm := Arr.mul_le (w := w) (show it1 + 1 ≤ lastBase by omega)
    rw [mul_add_one] at hm
    have hb : it2 + 1 ≤ B.hi := Arr.le_of_mul (w := w) hw (by rw [mul_add_one]; omega)
    refine f_form ⟨by omega, hb⟩ (f_bind' (f_up _) fun _ => f_form ⟨by omega, by omega⟩ (f_bind' (f_up _) fun _ =>
      f_mono (ih _ _ (by omega) (by omega) (by omega) ?_) fun r hr => ⟨hr.1, ?_⟩))
    · rw [mul_add_one, Int.sub_mul, mul_add_one]
      omega
    · rw [hr.2]
      omega

theorem f_swapSingle {B : Arr} {S : ShiftSem w} {first1 last1 first2 : BitIter w} (hle : first1.addr ≤ last1.addr)
    (hd : B.Has first2) (h2 : first2.addr + (last1.addr - first1.addr) ≤ B.hi * w) :
    Fits (swapSingle B S first1 last1 first2) (BitLib.swapSingle S first1 last1 first2) fun _ => True := by
  unfold Ptr.swapSingle BitLib.swapSingle
  have hlo := hd.lo_le
  refine f_bind (f_distance _ _) fun d hdd => ?_
  have ha := hd.add (n := (d.toNat : Int)) (by omega) (by omega)
  refine f_ite (fun _ => f_bind' (f_up _) fun _ => f_add0 ha trivial) fun _ => f_bind' (f_up _) fun _ => f_ite (fun hp => ?_) fun _ => f_add0 ha trivial
  exact f_form ⟨by have := hd.lo_base; omega, hd.word (len := d.toNat) (by omega) (by omega)⟩ (f_bind' (f_up _) fun _ => f_add0 ha trivial)

theorem f_swapAligned {A B : Arr} {S : ShiftSem w} {first1 last1 first2 : BitIter w} (h : A.Has first1) (hl : A.Has last1) (hd : B.Has first2)
    (hb : first1.base < last1.base) (hp : first1.pos = first2.pos) (h2 : first2.addr + (last1.addr - first1.addr) ≤ B.hi * w) :
    Fits (swapAligned A B S first1 last1 first2) (BitLib.swapAligned S first1 last1 first2) fun _ => True := by
  unfold Ptr.swapAligned BitLib.swapAligned
  have hw := h.pos_w
  have hlo := h.lo_base
  have hlo2 := hd.lo_base
  have hhi := hl.base_hi
  have e : first2.base + 1 + (last1.base - (first1.base + 1)) ≤ B.hi := by
    refine Arr.le_of_mul (w := w) hw ?_
    rw [Arr.addr_eq, Arr.addr_eq, Arr.addr_eq] at h2
    rw [Int.add_mul, Int.sub_mul, mul_add_one, mul_add_one]
    omega
  refine f_form ⟨by omega, by omega⟩ (f_form ⟨by omega, by omega⟩ (f_bind' (f_up _) fun _ =>
    f_bind' (f_mono (f_stdSwapRanges ⟨by omega, by omega⟩) fun _ _ => trivial) fun _ => f_ite (fun _ => f_bind' (f_up _) fun _ => f_up _) fun _ => f_up _))

theorem f_swapMisHead {A B : Arr} {S : ShiftSem w} {first1 first2 : BitIter w} (h : A.Has first1) (hn : first1.base + 1 ≤ A.hi) (hd : B.Has first2)
    (h2 : first2.addr + (w - first1.pos : Nat) ≤ B.hi * w) :
    Fits (swapMisHead A B S first1 first2) (BitLib.swapMisHead S first1 first2)
      fun r => r = (first1.base + 1, (first2.add ((w - first1.pos : Nat) : Int)).base) := by
  unfold Ptr.swapMisHead BitLib.swapMisHead
  have hw := h.pos_w
  have hlo := h.lo_base
  have hlo2 := hd.lo_base
  have hv1 := h.valid
  have hv2 := hd.valid
  unfold BitIter.Valid at hv1 hv2
  have ea := Arr.addr_eq first2
  refine f_ite (fun hc => ?_) fun hc => ?_
  · have e : first2.add ((w - first1.pos : Nat) : Int) = ⟨first2.base, first2.pos + (w - first1.pos)⟩ := by
      refine BitIter.addr_inj (BitIter.add_valid hw _ _) (show first2.pos + (w - first1.pos) < w by omega) ?_
      rw [BitIter.add_addr hw, Arr.addr_eq, Arr.addr_eq]
      simp only
      omega
    rw [e]
    exact f_form ⟨by omega, by omega⟩ (f_bind' (f_up _) fun _ => f_pure rfl)
  · have e : first2.add ((w - first1.pos : Nat) : Int) = ⟨first2.base + 1, first2.pos - first1.pos⟩ := by
      refine BitIter.addr_inj (BitIter.add_valid hw _ _) (show first2.pos - first1.pos < w by omega) ?_
      rw [BitIter.add_addr hw, Arr.addr_eq, Arr.addr_eq]
      simp only
      rw [mul_add_one]
      omega
    have hb : first2.base + 1 ≤ B.hi := Arr.le_of_mul (w := w) hw (by rw [mul_add_one]; omega)
    rw [e]
    exact f_form ⟨by omega, hb⟩ (f_bind' (f_up _) fun _ => f_form ⟨by omega, by omega⟩ (f_bind' (f_up _) fun _ => f_pure rfl))

theorem f_swapMisaligned {A B : Arr} {S : ShiftSem w} {first1 last1 first2 : BitIter w} (h : A.Has first1) (hl : A.Has last1) (hd : B.Has first2)
    (hb : first1.base < last1.base) (h2 : first2.addr + (last1.addr - first1.addr) ≤ B.hi * w) :
    Fits (swapMisaligned A B S first1 last1 first2) (BitLib.swapMisaligned S first1 last1 first2) fun _ => True := by
  unfold Ptr.swapMisaligned BitLib.swapMisaligned
  have hw := h.pos_w
  have hlo := h.lo_base
  have hhi := hl.base_hi
  have hv1 := h.valid
  unfold BitIter.Valid at hv1
  have hm := Arr.mul_le (w := w) (show first1.base + 1 ≤ last1.base by omega)
  rw [mul_add_one] at hm
  have e1 := Arr.addr_eq first1
  have el := Arr.addr_eq last1
  have hlo2 := hd.lo_le
  have hf := hd.add (n := ((w - first1.pos : Nat) : Int)) (by omega) (by omega)
  have hfa := BitIter.add_addr hw first2 ((w - first1.pos : Nat) : Int)
  have hfe := Arr.addr_eq (first2.add ((w - first1.pos : Nat) : Int))
  have hfv := hf.valid
  unfold BitIter.Valid at hfv
  refine f_bind (f_swapMisHead h (by omega) hd (by omega)) ?_
  rintro _ rfl
  simp only
  refine f_add hf ?_
  generalize first2.add ((w - first1.pos : Nat) : Int) = f at *
  refine f_bind (f_swapLoop hw hhi _ _ _ (by omega) (by omega) hf.lo_base ?_) ?_
  · rw [Int.sub_mul, mul_add_one]
    omega
  rintro ⟨i1, i2⟩ ⟨g1, g2⟩
  simp only at g1 g2 ⊢
  have g2' : i2 * (w : Int) = f.base * w + last1.base * w - first1.base * w - w := by
    rw [g2, Int.add_mul, Int.sub_mul, mul_add_one]
    omega
  have hlob := hf.lo_base
  have hlobm := Arr.mul_le (w := w) hlob
  have hi2 : B.lo ≤ i2 := by omega
  have hi2m := Arr.mul_le (w := w) hi2
  refine f_ite (fun hp => f_ite (fun hq => ?_) fun hq => ?_) fun _ => f_up _
  · refine f_bind' (f_up _) fun _ => f_bind (f_mk _ _) ?_
    rintro _ ⟨rfl, _⟩
    have hr : B.Has (⟨i2, f.pos⟩ : BitIter w) := ⟨hfv, by simp only; omega, by simp only; omega⟩
    refine f_add0 (hr.add ?_ ?_) trivial
    · rw [Arr.addr_eq]
      simp only
      omega
    · rw [Arr.addr_eq]
      simp only
      omega
  · have : i2 + 1 ≤ B.hi := Arr.le_of_mul (w := w) hw (by rw [mul_add_one]; omega)
    exact f_form ⟨by omega, by omega⟩ (f_bind' (f_up _) fun _ => f_bind' (f_up _) fun _ => f_up _)

theorem f_swapRanges {A B : Arr} {S : ShiftSem w} {first1 last1 first2 : BitIter w} (h : A.Has first1) (hl : A.Has last1) (hd : B.Has first2)
    (h2 : first2.addr + (last1.addr - first1.addr) ≤ B.hi * w) :
    Fits (swapRanges A B S first1 last1 first2) (BitLib.swapRanges S first1 last1 first2) fun _ => True := by
  unfold Ptr.swapRanges BitLib.swapRanges
  have hlo := h.lo_base
  have hhi := hl.base_hi
  have e1 := Arr.addr_eq first1
  have el := Arr.addr_eq last1
  have hlv := hl.valid
  unfold BitIter.Valid at hlv
  refine f_bind (f_viable _ _) fun _ hv => f_ite (fun _ => f_pure trivial) fun hne => ?_
  have hne' : first1.addr ≠ last1.addr := fun e => hne ((BitIter.beq_iff h.valid hl.valid).2 e)
  have hbm := Arr.base_mono hlv hv
  have h0 : last1.pos = 0 → first1.base < last1.base := fun hp => Arr.lt_of_mul (w := w) (by omega)
  refine f_form (by split <;> omega) (f_ite (fun _ => f_swapSingle hv hd h2) fun hc => ?_)
  have hb : first1.base < last1.base := by
    split at hc <;> omega
  exact f_ite (fun hp => f_swapAligned h hl hd hb hp h2) fun _ => f_swapMisaligned h hl hd hb h2

end Ptr
end BitLib

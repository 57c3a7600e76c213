import Verif.SpecStore
import Verif.Props.VectorAlg
/- `bit_vector` members as operations on all the bits of the words. -/
namespace BitLib
variable {w : Nat} {α β : Type}

/-! ### Lists -/

theorem splice_splice (f A B X : List Bool) {d : Nat} (hX : A.length = X.length) (h : d + (A ++ B).length ≤ f.length) :
    splice (splice f d (A ++ B)) d X = splice f d (X ++ B) := by
  rw [List.length_append] at h
  refine List.ext_getElem? fun i => ?_
  rw [splice_get _ _ (by rw [splice_length _ _ (by rw [List.length_append]; omega)]; omega), splice_get _ _ (by rw [List.length_append]; omega),
    splice_get _ _ (by rw [List.length_append]; omega)]
  simp only [List.length_append, List.getElem?_append]
  split_ifs <;> first | rfl | (exfalso; omega) | (congr 1; omega)

theorem slice_append_left (f g : List Bool) (a : Nat) {b : Nat} (hb : b ≤ f.length) : slice (f ++ g) a b = slice f a b := by
  refine List.ext_getElem? fun i => ?_
  rw [slice_get, slice_get]
  split_ifs
  · rw [List.getElem?_append_left (by omega)]
  · rfl

theorem slice_self (f : List Bool) (a : Nat) : slice f a a = [] := by
  refine List.ext_getElem? fun i => ?_
  rw [slice_get, if_neg (by omega)]; rfl

namespace Store

theorem ceilW_ge (hw : 0 < w) (n : Nat) : n ≤ ceilW w n := by
  unfold ceilW
  have h1 := Nat.div_add_mod (n + w - 1) w
  have h2 := Nat.mod_lt (n + w - 1) hw
  rw [Nat.mul_comm] at h1
  omega

theorem ceilW_lt (hw : 0 < w) (n : Nat) : ceilW w n < n + w := by
  unfold ceilW
  have h1 := Nat.div_add_mod (n + w - 1) w
  rw [Nat.mul_comm] at h1
  omega

theorem ceilW_le (hw : 0 < w) {n k : Nat} (h : n ≤ k * w) : ceilW w n ≤ k * w := by
  unfold ceilW
  refine Nat.mul_le_mul_right w ?_
  have : (n + w - 1) / w < k + 1 := (Nat.div_lt_iff_lt_mul hw).2 (by rw [Nat.add_mul]; omega)
  omega

theorem ceilW_mul (hw : 0 < w) (k : Nat) : ceilW w (k * w) = k * w :=
  Nat.le_antisymm (ceilW_le hw (Nat.le_refl _)) (ceilW_ge hw _)

theorem ceilW_mul_add (hw : 0 < w) (k n : Nat) : ceilW w (k * w + n) = k * w + ceilW w n := by
  unfold ceilW
  rcases Nat.eq_zero_or_pos n with h0 | h0
  · subst h0
    rw [Nat.add_zero, Nat.zero_add, Nat.div_eq_of_lt (a := w - 1) (by omega), Nat.zero_mul, Nat.add_zero]
    have := ceilW_mul hw k
    unfold ceilW at this
    exact this
  · rw [show k * w + n + w - 1 = (n + w - 1) + w * k by rw [Nat.mul_comm w k]; omega, Nat.add_mul_div_left _ _ hw, Nat.add_mul]
    omega

theorem wordCount_ceil {n : Nat} (hn : n < 2 ^ 32) : wordCount w n * w = ceilW w n := by
  unfold wordCount ceilW
  rw [Nat.mod_eq_of_lt hn]

theorem widen_length (f : List Bool) (n : Nat) : (widen w f n).length = max f.length (ceilW w n) := by
  unfold widen
  rw [List.length_append, List.length_replicate]; omega

theorem widen_id {f : List Bool} {n : Nat} (h : ceilW w n ≤ f.length) : widen w f n = f := by
  unfold widen
  rw [Nat.sub_eq_zero_of_le h, List.replicate_zero, List.append_nil]

theorem widen_get (f : List Bool) (n i : Nat) :
    (widen w f n)[i]? = if i < f.length then f[i]? else if i < ceilW w n then some false else none := by
  unfold widen
  rw [List.getElem?_append]
  split_ifs with h1 h2
  · rfl
  · rw [List.getElem?_replicate, if_pos (by omega)]
  · rw [List.getElem?_replicate, if_neg (by omega)]

theorem slice_widen (f : List Bool) (n a : Nat) {b : Nat} (hb : b ≤ f.length) : slice (widen w f n) a b = slice f a b :=
  slice_append_left f _ a hb

theorem trim_length (f : List Bool) (n : Nat) : (trim w f n).length = ceilW w n := by
  unfold trim
  rw [List.length_take, widen_length]; omega

theorem trim_get (f : List Bool) (n i : Nat) :
    (trim w f n)[i]? = if i < ceilW w n then (if i < f.length then f[i]? else some false) else none := by
  unfold trim
  rw [List.getElem?_take, widen_get]
  split_ifs <;> rfl

end Store

open Store

/-! ### All the bits of the words -/

/-- The words of the vector hold the bits `f`. -/
abbrev RepW (h : Heap w) (vec : Vec) (f : List Bool) : Prop := Rep h ⟨vec, vec.size * w⟩ f

theorem RepW.len {h : Heap w} {vec : Vec} {f : List Bool} (r : RepW h vec f) : vec.size * w = f.length := Rep.len r

theorem RepW.lenInt {h : Heap w} {vec : Vec} {f : List Bool} (r : RepW h vec f) : (vec.size : Int) * (w : Int) = (f.length : Int) := by
  have := r.len
  exact_mod_cast this

theorem RepW.mk {h : Heap w} {vec : Vec} {f : List Bool} (ok : VecOk h vec) (len : vec.size * w = f.length)
    (bits : ∀ j : Int, 0 ≤ j → j < (f.length : Int) → bitAt h.mem (vec.ptr * (w : Int) + j) = f[j.toNat]?) : RepW h vec f :=
  Rep.of ok len (Nat.le_refl _) bits

theorem wpV_roomW (hw : 0 < w) {P : Policy} {v : BV} {h : Heap w} {f : List Bool} {Q : Vec → Heap w → Prop}
    (hwf : h.WF) (hr : RepW h v.vec f) (hn : v.length ≤ f.length)
    (hQ : ∀ vec h', VStep h v.vec h' vec → RepW h' vec (widen w f (v.length + 1)) → Q vec h') :
    wpV (v.room P) h Q := by
  have hl := hr.len
  have hli := hr.lenInt
  unfold BV.room
  split_ifs with he
  · have hc : ceilW w (v.length + 1) = f.length + w := by
      rw [← he, ceilW_mul_add hw, show ceilW w 1 = w by
        have := ceilW_mul hw 1
        rw [Nat.one_mul] at this
        refine Nat.le_antisymm ?_ ?_
        · have := ceilW_le hw (n := 1) (k := 1) (by omega); omega
        · unfold ceilW
          rw [Nat.add_sub_cancel_left, Nat.div_self hw, Nat.one_mul]]
      omega
    unfold Vec.pushBack
    rw [wpV_bind]
    refine wpV_grown hw hwf hr.ok (by omega) ?_
    intro v1 h1 s1 o1 e1 hc1 hb1
    obtain ⟨s, o, hb⟩ := extend_ok hw (n := v1.size + 1) (f := fun _ => some 0#w) (fun _ => rfl) s1.wf o1 (by omega) (by omega)
    rw [show v1.size + 1 - v1.size = 1 by omega] at s o hb
    have hcast : ((v1.size : Int)) * (w : Int) = (f.length : Int) := by rw [e1]; exact hli
    refine ⟨_, _, rfl, hQ _ _ (s1.trans s) (RepW.mk o ?_ ?_)⟩
    · rw [widen_length, hc]
      dsimp only
      rw [e1, Nat.add_mul]; omega
    · intro j h0 hj
      rw [widen_length, hc] at hj
      rw [widen_get, hc]
      dsimp only at hb ⊢
      split_ifs with c1 c2
      · rw [hb j (by omega), hb1 j h0 (by omega)]
        exact hr.bit h0 (by omega)
      · rw [bitAt_place_zero hw, if_pos]
        rw [Int.add_mul, hcast]
        constructor
        · omega
        · have : ((1 : Nat) : Int) * (w : Int) = (w : Int) := by omega
          omega
      · omega
  · rw [widen_id (w := w) (n := v.length + 1)] at hQ
    · exact wpV_pure (hQ _ _ (VStep.refl hwf _) hr)
    · rw [← hl]
      exact ceilW_le hw (by omega)

theorem wpV_resizeW (hw : 0 < w) {P : Policy} {vec : Vec} {n : Nat} {h : Heap w} {f : List Bool} {Q : Vec → Heap w → Prop}
    (hwf : h.WF) (hr : RepW h vec f) (hn : n < 2 ^ 32)
    (hQ : ∀ vec' h', VStep h vec h' vec' → RepW h' vec' (trim w f n) → Q vec' h') :
    wpV (vec.resize P (wordCount w n)) h Q := by
  have hli := hr.lenInt
  have hc := wordCount_ceil (w := w) hn
  have hci : (wordCount w n : Int) * (w : Int) = (ceilW w n : Int) := by exact_mod_cast hc
  refine wpV_resize hw hwf hr.ok ?_
  intro v' h' s o e hb1 hb2
  refine hQ v' h' s (RepW.mk o (by rw [e, hc, trim_length]) ?_)
  intro j h0 hj
  rw [trim_length] at hj
  rw [trim_get, if_pos (by omega)]
  split_ifs with c1
  · rw [hb1 j h0 (by omega) (by omega)]
    exact hr.bit h0 (by omega)
  · exact hb2 j (by omega) (by omega)

theorem wpV_growForW (hw : 0 < w) {P : Policy} {v : BV} {h : Heap w} {f : List Bool} {c : Nat} {Q : Vec → Heap w → Prop}
    (hwf : h.WF) (hr : RepW h v.vec f) (hc : v.length + c ≤ 2 ^ 24)
    (hQ : ∀ vec h', VStep h v.vec h' vec → RepW h' vec (widen w f (v.length + c)) → Q vec h') :
    wpV (BV.growFor P v c) h Q := by
  have hl := hr.len
  have hli := hr.lenInt
  unfold BV.growFor
  dsimp only
  rw [f32_small hc]
  rcases Nat.lt_or_ge (v.vec.size * w) (2 ^ 24) with hb | hb
  · rw [f32_small (by omega)]
    split_ifs with hg
    · rw [f32_small (by omega), wpV_bind]
      refine wpV_onMem ?_
      unfold floatToU32
      rw [if_pos (by omega), wp_lift_ok]
      have hwc := wordCount_ceil (w := w) (n := v.length + c - v.vec.size * w) (by omega)
      have hce : ceilW w (v.length + c) = f.length + ceilW w (v.length + c - v.vec.size * w) := by
        conv_lhs => rw [show v.length + c = v.vec.size * w + (v.length + c - v.vec.size * w) by omega]
        rw [ceilW_mul_add hw, hl]
      have hsz : (v.vec.size + wordCount w (v.length + c - v.vec.size * w)) * w = ceilW w (v.length + c) := by
        rw [Nat.add_mul, hwc, hce, hl]
      have hszi : ((v.vec.size + wordCount w (v.length + c - v.vec.size * w) : Nat) : Int) * (w : Int) = (ceilW w (v.length + c) : Int) := by
        exact_mod_cast hsz
      refine wpV_resize hw hwf hr.ok ?_
      intro v' h' s o e hb1 hb2
      dsimp only at hb1 hb2 s
      refine hQ v' h' s (RepW.mk o (by rw [e, hsz, widen_length]; omega) ?_)
      intro j h0 hj
      rw [widen_length] at hj
      rw [widen_get]
      split_ifs with c1 c2
      · rw [hb1 j h0 (by omega) (by omega)]
        exact hr.bit h0 (by omega)
      · exact hb2 j (by omega) (by omega)
      · omega
    · rw [widen_id (by rw [← hl]; exact ceilW_le hw (by omega))] at hQ
      exact wpV_pure (hQ _ _ (VStep.refl hwf _) hr)
  · have := f32_big hb
    rw [if_neg (by omega)]
    rw [widen_id (by rw [← hl]; exact ceilW_le hw (by omega))] at hQ
    exact wpV_pure (hQ _ _ (VStep.refl hwf _) hr)

theorem wpV_dropWordW (hw : 0 < w) {vec : Vec} {n : Nat} {h : Heap w} {f : List Bool} {Q : Vec → Heap w → Prop}
    (hwf : h.WF) (hr : RepW h vec f) (hn : 0 < n) (hfit : n ≤ f.length)
    (hQ : ∀ vec' h', VStep h vec h' vec' → vec'.ptr = vec.ptr → RepW h' vec' (less w f n).bits → (less w f n).n ≤ (less w f n).bits.length → Q vec' h') :
    wpV (BV.dropWord vec (n - 1)) h Q := by
  have hl := hr.len
  unfold less at hQ
  dsimp only at hQ
  unfold BV.dropWord
  split_ifs with he
  · rw [if_pos he] at hQ
    have hs : 0 < vec.size := by
      rcases Nat.eq_zero_or_pos vec.size with h0 | h0
      · rw [h0, Nat.zero_mul] at hl; omega
      · exact h0
    have hsw : (vec.size - 1) * w = f.length - w := by rw [Nat.sub_mul, hl, Nat.one_mul]
    have hswi : ((vec.size - 1 : Nat) : Int) * (w : Int) = ((f.length - w : Nat) : Int) := by exact_mod_cast hsw
    refine wpV_popBack hw hwf hr.ok hs ?_
    intro v' h' s o e ep hb
    refine hQ v' h' s ep (RepW.mk o (by rw [e, hsw, List.length_take]; omega) ?_) ?_
    · intro j h0 hj
      rw [List.length_take] at hj
      rw [List.getElem?_take, if_pos (by omega), hb j (by omega)]
      exact hr.bit h0 (by omega)
    · rw [List.length_take]
      obtain ⟨k, hk⟩ := Nat.dvd_of_mod_eq_zero he
      have h1 : w * k < w * vec.size := by rw [Nat.mul_comm w vec.size]; omega
      have h2 : k < vec.size := Nat.lt_of_mul_lt_mul_left h1
      have h3 : w * k ≤ w * (vec.size - 1) := Nat.mul_le_mul_left w (by omega)
      rw [Nat.mul_comm w (vec.size - 1)] at h3
      omega
  · rw [if_neg he] at hQ
    exact wpV_pure (hQ _ _ (VStep.refl hwf _) rfl hr (by omega))

/-! ### The shifts -/

theorem wpV_gapW (S : ShiftSem w) (hw : 0 < w) {v : BV} {h : Heap w} {f : List Bool} {d n c : Nat} {first last : BitIter w}
    {Q : BitIter w → Heap w → Prop}
    (hwf : h.WF) (hr : Rep h v f) (hp : IsPos v first d) (hq : IsPos v last (n + c)) (hd : d ≤ n) (hc : 0 < c) (hn : n + c ≤ f.length)
    (hfull : ¬ (d % w = 0 ∧ n + c - d = w ∧ c < w) ∨ S.FullShiftOk)
    (hQ : ∀ it h' A, A.length = c → VStep h v.vec h' v.vec → Rep h' v (splice f d (A ++ slice f d n)) → Q it h') :
    wpV (onMem (shiftRight S first last (c : Int))) h Q := by
  rcases Nat.lt_or_ge d n with hlt | hge
  · obtain ⟨it, h', e, _, s, r⟩ := C64_shift_right_partial S h v f first last d (n + c) c hwf hr hp hq hc (by omega) hn
      (hfull.imp (fun hh hx => hh ⟨hx.1, hx.2, by omega⟩) id)
    rw [Nat.add_sub_cancel] at r
    exact ⟨it, h', e, hQ _ _ _ (vacatedR_length hw f hc (by omega)) s r⟩
  · have hdn : d = n := by omega
    subst hdn
    have p2 := hp.2
    have q2 := hq.2
    have hfi := hr.fitInt
    refine wpV_onMem (wp_shiftRight S hp.1 hq.1 (by omega) ?_ ?_ (by omega) ?_ (fun _ h2 => by omega))
    · intro i h1 h2
      exact hr.ok.mapped i (by omega) (by omega)
    · refine .inl fun hx => ?_
      omega
    · intro _ _
      refine hQ _ _ (slice f d (d + c)) ?_ (VStep.refl hwf _) ?_
      · rw [slice_length _ hn]; omega
      · rw [slice_self, List.append_nil, splice_slice _ (by omega) hn]
        exact hr

theorem wpV_closeW (S : ShiftSem w) (hw : 0 < w) {v : BV} {h : Heap w} {f : List Bool} {d n c : Nat} {first last : BitIter w}
    {Q : BitIter w → Heap w → Prop}
    (hwf : h.WF) (hr : Rep h v f) (hp : IsPos v first d) (hq : IsPos v last n) (hc : 0 < c) (hd : d + c ≤ n) (hn : n ≤ f.length)
    (hfull : ¬ (d % w = 0 ∧ n - d = w ∧ c < w) ∨ S.FullShiftOk)
    (hQ : ∀ it h', VStep h v.vec h' v.vec → Rep h' v (close w ⟨f, n⟩ d c) → Q it h') :
    wpV (onMem (shiftLeft S first last (c : Int))) h Q := by
  unfold close at hQ
  dsimp only at hQ
  rcases Nat.lt_or_ge (d + c) n with hlt | hge
  · rw [if_pos hlt] at hQ
    obtain ⟨it, h', e, _, s, r⟩ := C64_shift_left_partial S h v f first last d n c hwf hr hp hq hc hlt hn
      (hfull.imp (fun hh hx => hh ⟨hx.1, hx.2, by omega⟩) id)
    exact ⟨it, h', e, hQ _ _ s r⟩
  · rw [if_neg (by omega)] at hQ
    have p2 := hp.2
    have q2 := hq.2
    have hfi := hr.fitInt
    refine wpV_onMem (wp_shiftLeft S hp.1 hq.1 (by omega) ?_ ?_ (fun _ => by omega) ?_ (fun _ h2 => by omega))
    · intro i h1 h2
      exact hr.ok.mapped i (by omega) (by omega)
    · refine .inl fun hx => ?_
      omega
    · intro _ _
      exact hQ _ _ (VStep.refl hwf _) hr

end BitLib

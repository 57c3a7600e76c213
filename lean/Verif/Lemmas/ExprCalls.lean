import Verif.Lemmas.ExprRun
import Mathlib.Tactic.Ring
import Mathlib.Tactic.Positivity
import Mathlib.Tactic.NormNum
/- Calls with numbers, and swaps. -/
namespace BitLib.Expr
variable {w : Nat} {T : Prop} {α β γ δ : Type}

theorem ofInt_bit (k : Nat) (n : Int) (p : Nat) (h : p < k) : (BitVec.ofInt k n).getLsbD p = intBit n p := by
  rw [BitVec.getLsbD, BitVec.toNat_ofInt, Nat.testBit_eq_decide_div_mod_eq]
  unfold intBit
  rw [Bool.eq_iff_iff, decide_eq_true_eq, beq_iff_eq]
  have hk : (0 : Int) < ((2 ^ k : Nat) : Int) := by exact_mod_cast Nat.two_pow_pos k
  have hr : 0 ≤ n % ((2 ^ k : Nat) : Int) := Int.emod_nonneg _ (by omega)
  have e1 : (((n % ((2 ^ k : Nat) : Int)).toNat / 2 ^ p % 2 : Nat) : Int) = n % ((2 ^ k : Nat) : Int) / 2 ^ p % 2 := by
    rw [Int.natCast_emod, Int.natCast_ediv, Int.toNat_of_nonneg hr]
    norm_num
  have hs : ((2 ^ k : Nat) : Int) = 2 ^ p * (2 * 2 ^ (k - p - 1)) := by
    have : k = p + (1 + (k - p - 1)) := by omega
    conv_lhs => rw [this]
    push_cast
    rw [pow_add, pow_add, pow_one]
  have hp : (0 : Int) < 2 ^ p := by positivity
  have e2 : n % ((2 ^ k : Nat) : Int) / 2 ^ p % 2 = n / 2 ^ p % 2 := by
    have e3 : n % ((2 ^ k : Nat) : Int) = n + 2 ^ p * (-(2 * (2 ^ (k - p - 1) * (n / (2 ^ p * (2 * 2 ^ (k - p - 1))))))) := by
      rw [hs, Int.emod_def]
      ring
    rw [e3]
    rw [Int.add_mul_ediv_left _ _ (by omega)]
    omega
  rw [← e2, ← e1]
  constructor
  · intro h; rw [h]; rfl
  · intro h; exact_mod_cast h

/-- A number is used as a word of `k` digits. -/
theorem ofWord_value {k : Nat} (hk : 0 < k) (n : Int) : (BitVal.ofWord (BitVec.ofInt k n)).value = intBit n 0 := by
  rw [← ofInt_bit k n 0 hk]
  exact (C54_of_word (BitVal.default) (BitVec.ofInt k n)).1

theorem assign_value {k : Nat} (hk : 0 < k) (a : BitVal) (n : Int) : (a.assign (BitVec.ofInt k n)).value = intBit n 0 := by
  rw [← ofInt_bit k n 0 hk]
  exact (C54_of_word a (BitVec.ofInt k n)).2

/-- A bit is put in its place. -/
def putVal (p : Val) (b : Bool) : Comp Val := do
  p.put b
  pure p

theorem sim_setTo (A : Arith) (S : ∀ k, ShiftSem k) {t : ETy} {a : ATy} {x y : Res w} {p v : Val} {s : State} (ht : t.isBit = true)
    (hx : Rel t.named x p s) (hy : Rel (.arith a) y v s) :
    Sim T s (run2 A S (if t.isVal then .valSetTo else .refSetTo) x y) (v.get >>= putVal p) (Rel t.named) := by
  obtain ⟨n, rfl, rfl⟩ := hy
  have e : (n != 0) = truthOf n := by unfold truthOf; by_cases h : n = 0 <;> simp [h]
  refine Sim.step (b := truthOf n) (by rw [← e]; rfl) ?_
  cases t with
  | arith a => cases ht
  | void => cases ht
  | val c l =>
    obtain ⟨k, rfl, rfl, hk⟩ := hx
    show Sim T s (getObj k >>= fun a => putObj k (a.setTo (truthOf n)) >>= fun _ => (Pure.pure (Res.obj k) : X w (Res w))) _ _
    have := sim_updVal (T := T) (w := w) (c := false) (f := fun a => a.setTo (truthOf n)) (g := fun _ => truthOf n) ⟨k, rfl, rfl, hk⟩ (fun _ => rfl)
    intro o m hs
    have := this o m hs
    rw [show updVal (fun _ => truthOf n) (.obj k) s = putVal (.obj k) (truthOf n) s by
      show ((Val.obj k).get s).bind _ = _
      rw [get_obj hk]
      rfl] at this
    exact this
  | ref c u l =>
    obtain ⟨r, a', rfl, rfl, hr, ha⟩ := hx
    obtain ⟨b0, hb0⟩ := Option.isSome_iff_exists.1 ha
    exact sim_putRef hr hb0 (.setTo (truthOf n)) rfl

theorem sim_updVal' {s : State} {c : Bool} {k : Nat} {p : Val} (hx : Rel (w := w) (.val c true) (.obj k) p s) {f : BitVal → BitVal} {b : Bool}
    (hg : ∀ a, (f a).value = b) :
    Sim T s (getObj k >>= fun a => putObj k (f a) >>= fun _ => (Pure.pure (Res.obj k) : X w (Res w))) (putVal p b) (Rel (.val false true)) := by
  obtain ⟨k', h, rfl, hk⟩ := hx
  cases h
  intro o m hs
  have := sim_updVal (T := T) (w := w) (c := c) (f := f) (g := fun _ => b) ⟨k, rfl, rfl, hk⟩ (fun _ => hg _) o m hs
  rw [show updVal (fun _ => b) (.obj k) s = putVal (.obj k) b s by
    show ((Val.obj k).get s).bind _ = _
    rw [get_obj hk]
    rfl] at this
  exact this

theorem sim_assignWord (hw : 0 < w) (A : Arith) (S : ∀ k, ShiftSem k) {t : ETy} {a : ATy} {x y : Res w} {p v : Val} {s : State} (ht : t.isBit = true)
    (ha : t.isVal = true → 0 < a.width) (hx : Rel t.named x p s) (hy : Rel (.arith a) y v s) :
    Sim T s (run2 A S (if t.isVal then .valAssignWord else .refAssignWord) x y) (v.lowBit >>= putVal p) (Rel t.named) := by
  obtain ⟨n, rfl, rfl⟩ := hy
  refine Sim.step (b := intBit n 0) rfl ?_
  cases t with
  | arith a => cases ht
  | void => cases ht
  | val c l =>
    obtain ⟨k, rfl, rfl, hk⟩ := hx
    exact sim_updVal' (f := fun b => b.assign (BitVec.ofInt a.width n)) (c := false) ⟨k, rfl, rfl, hk⟩ (fun b => assign_value (ha rfl) b n)
  | ref c u l =>
    obtain ⟨r, a', rfl, rfl, hr, ha⟩ := hx
    obtain ⟨b0, hb0⟩ := Option.isSome_iff_exists.1 ha
    exact sim_putRef hr hb0 (.assignWord (BitVec.ofInt w n)) (ofInt_bit w n 0 hw)

theorem sim_assignPos (hT : T) (S : ∀ k, ShiftSem k) {t : ETy} {a a' : ATy} {x y z : Res w} {p v u : Val} {s : State} (ht : t.isBit = true)
    (hx : Rel t.named x p s) (hy : Rel (.arith a) y v s) (hz : Rel (.arith a') z u s) :
    Sim T s (run3 S (if t.isVal then .valAssignPos else .refAssignPos) x y z) (v.bitNo (if t.isVal then a.width else w) u >>= putVal p) (Rel t.named) := by
  obtain ⟨n, rfl, rfl⟩ := hy
  obtain ⟨i, rfl, rfl⟩ := hz
  by_cases hi : asSize i < (if t.isVal then a.width else w)
  · refine Sim.step (b := intBit n (asSize i)) ?_ ?_
    · show (if asSize i < (if t.isVal then a.width else w) then some (intBit n (asSize i), s) else none) = _
      rw [if_pos hi]
    cases t with
    | arith a => cases ht
    | void => cases ht
    | val c l =>
      obtain ⟨k, rfl, rfl, hk⟩ := hx
      intro o m hs
      have h := sim_updVal' (T := T) (w := w) (f := fun _ => ⟨intBit n (asSize i)⟩) (c := false) ⟨k, rfl, rfl, hk⟩ (fun b => rfl) o m hs
      have e : run3 S .valAssignPos (.obj k) (.num a n) (.num a' i) o m
          = (getObj k >>= fun _ => putObj k ⟨intBit n (asSize i)⟩ >>= fun _ => (Pure.pure (Res.obj k) : X w (Res w))) o m := by
        show (getObj k >>= fun b => StateT.lift (lift (b.assignPos (S a.width) (BitVec.ofInt a.width n) (asSize i))) >>= fun v => putObj k v >>= fun _ =>
          (Pure.pure (Res.obj k) : X w (Res w))) o m = _
        rw [bind_run, bind_run, getObj_run hs hk]
        dsimp only
        rw [bind_run, lift_run, ((C54_of_word_pos (S a.width) _ (BitVec.ofInt a.width n) (asSize i)).1 hi).2, ofInt_bit a.width n _ hi]
        rfl
      rw [show (if (ETy.val c l).isVal = true then Fn.valAssignPos else Fn.refAssignPos) = .valAssignPos from rfl, e]
      exact h
    | ref c u l =>
      obtain ⟨r, a2, rfl, rfl, hr, ha⟩ := hx
      obtain ⟨b0, hb0⟩ := Option.isSome_iff_exists.1 ha
      intro o m hs
      have hm : (bitAt m a2).isSome := by rw [hs.bits]; exact ha
      have hi' : asSize i < w := hi
      obtain ⟨m', e, hb⟩ := (C03_assign_pos (S w) m r a2 (BitVec.ofInt w n) (asSize i) hr hm).1 hi'
      refine ⟨.ref r, o, m', ?_, ⟨?_, hs.objs⟩, ⟨r, a2, rfl, rfl, hr, ?_⟩, keeps_setBit s a2 (intBit n (asSize i))⟩
      · show ((StateT.lift (r.assignWordPos (S w) (BitVec.ofInt w n) (asSize i)) : X w Unit) >>= fun _ => (Pure.pure (Res.ref r) : X w (Res w))) o m = _
        rw [bind_run, lift_run, e]
        rfl
      · funext j
        rw [hb j, ofInt_bit _ n _ hi', hs.bits]
      · show (if a2 = a2 then some (intBit n (asSize i)) else s.bits a2).isSome
        rw [if_pos rfl]; rfl
  · have hn : (Val.num a n).bitNo (if t.isVal then a.width else w) (.num a' i) s = none := by
      show (if asSize i < (if t.isVal then a.width else w) then some (intBit n (asSize i), s) else none) = _
      exact if_neg hi
    intro o m hs
    have e : ((Val.num a n).bitNo (if t.isVal then a.width else w) (.num a' i) >>= putVal p) s = none := by
      show ((Val.num a n).bitNo _ (.num a' i) s).bind _ = none
      rw [hn]
      rfl
    rw [e]
    refine ⟨hT, ?_⟩
    cases t with
    | arith a => cases ht
    | void => cases ht
    | val c l =>
      obtain ⟨k, rfl, rfl, hk⟩ := hx
      show (getObj k >>= fun b => StateT.lift (lift (b.assignPos (S a.width) (BitVec.ofInt a.width n) (asSize i))) >>= fun v => putObj k v >>= fun _ =>
          (Pure.pure (Res.obj k) : X w (Res w))) o m = _
      rw [bind_run, getObj_run hs hk]
      dsimp only
      rw [bind_run, lift_run, ((C54_of_word_pos (S a.width) _ (BitVec.ofInt a.width n) (asSize i)).2 (Nat.le_of_not_lt hi)).2]
      rfl
    | ref c u l =>
      obtain ⟨r, a2, rfl, rfl, hr, ha⟩ := hx
      have hm : (bitAt m a2).isSome := by rw [hs.bits]; exact ha
      show ((StateT.lift (r.assignWordPos (S w) (BitVec.ofInt w n) (asSize i)) : X w Unit) >>= fun _ => (Pure.pure (Res.ref r) : X w (Res w))) o m = _
      rw [bind_run, lift_run, (C03_assign_pos (S w) m r a2 (BitVec.ofInt w n) (asSize i) hr hm).2 (Nat.le_of_not_lt hi)]

theorem sim_ctorPos (hT : T) (A : Arith) (S : ∀ k, ShiftSem k) {a a' : ATy} {y z : Res w} {v u : Val} {s : State}
    (hy : Rel (.arith a) y v s) (hz : Rel (.arith a') z u s) :
    Sim T s (run2 A S .ctorPos y z) (v.bitNo a.width u >>= fun b => pure (.bit b)) (Rel bitTy) := by
  obtain ⟨n, rfl, rfl⟩ := hy
  obtain ⟨i, rfl, rfl⟩ := hz
  intro o m hs
  have e : run2 A S .ctorPos (.num a n) (.num a' i) o m
      = (StateT.lift (lift (BitVal.ofWordPos (S a.width) (BitVec.ofInt a.width n) (asSize i))) >>= fun v => (Pure.pure (Res.bit v) : X w (Res w))) o m := rfl
  have e' : ((Val.num a n).bitNo a.width (.num a' i) >>= fun b => Pure.pure (Val.bit b)) s
      = if asSize i < a.width then some (Val.bit (intBit n (asSize i)), s) else none := by
    show (if asSize i < a.width then some (intBit n (asSize i), s) else none).bind _ = _
    split <;> rfl
  rw [e, e', bind_run, lift_run]
  by_cases hi : asSize i < a.width
  · rw [if_pos hi, ((C54_of_word_pos (S a.width) ⟨true⟩ (BitVec.ofInt a.width n) (asSize i)).1 hi).1, ofInt_bit _ n _ hi]
    exact ⟨_, o, m, rfl, hs, ⟨_, rfl, rfl⟩, Keeps.refl s⟩
  · rw [if_neg hi, ((C54_of_word_pos (S a.width) ⟨true⟩ (BitVec.ofInt a.width n) (asSize i)).2 (Nat.le_of_not_lt hi)).1]
    exact ⟨hT, rfl⟩

/-! ### Swaps -/

/-- What an exchange means. -/
def swapVals (p q : Val) : Comp Val := do
  let a ← p.get
  let b ← q.get
  p.put b
  q.put a
  pure .unit

theorem swapVals_run {p q : Val} {s : State} {a b : Bool} (hp : p.get s = some (a, s)) (hq : q.get s = some (b, s)) :
    swapVals p q s = (p.put b >>= fun _ => q.put a >>= fun _ => Pure.pure Val.unit) s := by
  show (p.get s).bind (fun x => (q.get x.2).bind _) = _
  rw [hp]
  show (q.get s).bind _ = _
  rw [hq]
  rfl

theorem sim_swapRefs {s : State} {r r' : BitRef w} {a a' : Int} (hr : r.At a) (hr' : r'.At a') (ha : (s.bits a).isSome) (ha' : (s.bits a').isSome) :
    Sim T s (StateT.lift (BitRef.swap r r') >>= fun _ => (Pure.pure Res.unit : X w (Res w))) (swapVals (.ref a) (.ref a')) (Rel .void) := by
  obtain ⟨b, hb⟩ := Option.isSome_iff_exists.1 ha
  obtain ⟨c, hc⟩ := Option.isSome_iff_exists.1 ha'
  intro o m hs
  rw [swapVals_run (get_ref hb) (get_ref hc)]
  obtain ⟨m', e, hm⟩ := C04_swap m r r' a a' b c hr hr' (by rw [hs.bits]; exact hb) (by rw [hs.bits]; exact hc)
  refine ⟨.unit, o, m', ?_, ⟨?_, hs.objs⟩, ⟨rfl, rfl⟩, (keeps_setBit s a c).trans (keeps_setBit _ a' b)⟩
  · rw [bind_run, lift_run, e]
    rfl
  · funext i
    show _ = if i = a' then some b else if i = a then some c else s.bits i
    rw [hm i, hs.bits]
    by_cases h1 : i = a
    · by_cases h2 : i = a'
      · rw [if_pos h1, if_pos h2]
        rw [← h1, h2, hc] at hb
        exact hb
      · rw [if_pos h1, if_neg h2, if_pos h1]
    · rw [if_neg h1, if_neg h1]

theorem sim_swapRefVal {s : State} {r : BitRef w} {a : Int} {k : Nat} (hr : r.At a) (ha : (s.bits a).isSome) (hk : k < s.objs.length) {q : Comp Val}
    (hq : q s = swapVals (.ref a) (.obj k) s ∨ q s = swapVals (.obj k) (.ref a) s) :
    Sim T s (getObj k >>= fun v => StateT.lift (BitRef.swapVal r v) >>= fun b => putObj k b >>= fun _ => (Pure.pure Res.unit : X w (Res w))) q (Rel .void) := by
  obtain ⟨b, hb⟩ := Option.isSome_iff_exists.1 ha
  intro o m hs
  have hq' : q s = some (Val.unit, { s.setBit a s.objs[k] with objs := s.objs.set k b }) := by
    rcases hq with h | h
    · rw [h, swapVals_run (get_ref hb) (get_obj hk)]
      rfl
    · rw [h, swapVals_run (get_obj hk) (get_ref hb)]
      rfl
  rw [hq']
  obtain ⟨m', e, hm⟩ := C04_swap_value m r a b ⟨s.objs[k]⟩ hr (by rw [hs.bits]; exact hb)
  refine ⟨.unit, o.set k ⟨b⟩, m', ?_, ⟨?_, ?_⟩, ⟨rfl, rfl⟩, ⟨(keeps_setBit s a _).bits, ?_⟩⟩
  · rw [bind_run, getObj_run hs hk]
    dsimp only
    rw [bind_run, lift_run, e]
    rfl
  · funext i
    rw [hm i, hs.bits]
    rfl
  · rw [List.map_set, hs.objs]
  · show _ ≤ (s.objs.set k b).length
    rw [List.length_set]

theorem sim_swapObjs {s : State} {k l : Nat} (hk : k < s.objs.length) (hl : l < s.objs.length) {q : Comp Val} (hq : q s = swapVals (.obj k) (.obj l) s) :
    Sim T s (getObj k >>= fun tmp => getObj l >>= fun b => putObj k b >>= fun _ => putObj l tmp >>= fun _ => (Pure.pure Res.unit : X w (Res w)))
      q (Rel .void) := by
  intro o m hs
  have hq' : q s = some (Val.unit, { s with objs := (s.objs.set k s.objs[l]).set l s.objs[k] }) := by
    rw [hq, swapVals_run (get_obj hk) (get_obj hl)]
    rfl
  rw [hq']
  refine ⟨.unit, (o.set k ⟨s.objs[l]⟩).set l ⟨s.objs[k]⟩, m, ?_, ⟨hs.bits, ?_⟩, ⟨rfl, rfl⟩, ⟨fun _ h => h, ?_⟩⟩
  · rw [bind_run, getObj_run hs hk]
    dsimp only
    rw [bind_run, getObj_run hs hl]
    rfl
  · rw [List.map_set, List.map_set, hs.objs]
  · show _ ≤ ((s.objs.set k _).set l _).length
    rw [List.length_set, List.length_set]

theorem sim_stdSwapRefs {s : State} {r r' : BitRef w} {a a' : Int} (hr : r.At a) (hr' : r'.At a') (ha : (s.bits a).isSome) (ha' : (s.bits a').isSome)
    {q : Comp Val} {c : Bool} (hc : s.bits a' = some c) (hq : q s = ((Val.ref a).put c >>= fun _ => (Val.ref a').put c >>= fun _ => Pure.pure Val.unit) s) :
    Sim T s (StateT.lift (r.assignRef r') >>= fun _ => StateT.lift (r'.assignRef r) >>= fun _ => (Pure.pure Res.unit : X w (Res w))) q (Rel .void) := by
  obtain ⟨b, hb⟩ := Option.isSome_iff_exists.1 ha
  have key : Sim T s (StateT.lift (r.assignRef r') >>= fun _ => StateT.lift (r'.assignRef r) >>= fun _ => (Pure.pure Res.unit : X w (Res w)))
      ((Val.ref a').get >>= fun c => (Val.ref a).put c >>= fun _ => (Val.ref a).get >>= fun c => (Val.ref a').put c >>= fun _ => Pure.pure Val.unit) (Rel .void) := by
    rw [show r.assignRef r' = (r'.toBool >>= fun b => if b then r.set else r.reset) from rfl, lift_bind, bind_assoc]
    refine Sim.bind (sim_refRead hr' ha') ?_
    rintro x y s1 _ ⟨rfl, rfl⟩
    refine Sim.bind (sim_update hr hb (.setTo x) rfl) ?_
    intro _ _ s2 k2 _
    rw [show r'.assignRef r = (r.toBool >>= fun b => if b then r'.set else r'.reset) from rfl, lift_bind, bind_assoc]
    refine Sim.bind (sim_refRead hr (k2.bits a ha)) ?_
    rintro x y s3 _ ⟨rfl, rfl⟩
    obtain ⟨b', hb'⟩ := Option.isSome_iff_exists.1 (k2.bits a' ha')
    refine Sim.bind (sim_update hr' hb' (.setTo x) rfl) ?_
    intro _ _ s4 _ _
    exact Sim.pure ⟨rfl, rfl⟩
  intro o m hs
  have := key o m hs
  rw [hq]
  have e : ((Val.ref a').get >>= fun c => (Val.ref a).put c >>= fun _ => (Val.ref a).get >>= fun c => (Val.ref a').put c >>= fun _ => Pure.pure Val.unit) s
      = ((Val.ref a).put c >>= fun _ => (Val.ref a').put c >>= fun _ => Pure.pure Val.unit) s := by
    show ((Val.ref a').get s).bind _ = _
    rw [get_ref hc]
    show ((Val.ref a).get (s.setBit a c)).bind _ = _
    rw [get_ref (s := s.setBit a c) (b := c) (if_pos rfl)]
    rfl
  rw [e] at this
  exact this

end BitLib.Expr

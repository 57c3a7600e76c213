import Verif.Model.Hwy
import Verif.Lemmas.Wp
import Verif.Lemmas.Iter
import Mathlib.Tactic.Ring
/-
The vector loops of Model/Hwy.lean do what the scalar loops do.
-/
namespace BitLib
variable {w : Nat} {α β : Type}

/-! ### Reordering independent accesses -/

theorem M_bind_apply (x : M w α) (f : α → M w β) (m : Mem w) :
    (x >>= f) m = match x m with
      | .ok (a, m') => f a m'
      | .error e => .error e := by
  show (Except.bind (x m) fun p => f p.1 p.2) = _
  cases x m <;> rfl

theorem load_load_comm (a b : Int) (k : BitVec w → BitVec w → M w α) :
    (load a >>= fun x => load b >>= fun y => k x y) = (load b >>= fun y => load a >>= fun x => k x y) := by
  funext m
  simp only [M_bind_apply, load]
  cases ha : m a <;> cases hb : m b <;> simp [ha, hb]

theorem store_load_comm {f a : Int} (h : f ≠ a) (z : BitVec w) (k : BitVec w → M w α) :
    (store f z >>= fun _ => load a >>= k) = (load a >>= fun x => store f z >>= fun _ => k x) := by
  funext m
  have h' : ¬ a = f := fun e => h e.symm
  simp only [M_bind_apply, load, store]
  cases hf : m f <;> cases ha : m a <;> simp [hf, ha, Mem.set, h']

theorem store_store_comm {f g : Int} (h : f ≠ g) (z y : BitVec w) (k : M w α) :
    (store f z >>= fun _ => store g y >>= fun _ => k) = (store g y >>= fun _ => store f z >>= fun _ => k) := by
  funext m
  have h' : ¬ g = f := fun e => h e.symm
  have hset : (m.set f z).set g y = (m.set g y).set f z := by
    funext b
    simp only [Mem.set]
    by_cases h1 : b = g
    · subst h1; simp [h']
    · simp [h1]
  simp only [M_bind_apply, store]
  cases hf : m f <;> cases hg : m g <;> simp [hf, hg, Mem.set, h, h']; exact congrArg k (by simpa [Mem.set] using hset)

theorem store_loadN_comm {f : Int} (z : BitVec w) : ∀ (n : Nat) (a : Int), (f < a ∨ a + n ≤ f) → ∀ k : List (BitVec w) → M w α,
    (store f z >>= fun _ => loadN n a >>= k) = (loadN n a >>= fun l => store f z >>= fun _ => k l)
  | 0, _, _, k => by simp [loadN]
  | n+1, a, h, k => by
    simp only [loadN, bind_assoc, pure_bind]
    rw [store_load_comm (by omega)]
    congr 1; funext x
    exact store_loadN_comm z n (a + 1) (by omega) (fun l => k (x :: l))

theorem load_loadN_comm (b : Int) : ∀ (n : Nat) (a : Int) (k : BitVec w → List (BitVec w) → M w α),
    (load b >>= fun y => loadN n a >>= fun l => k y l) = (loadN n a >>= fun l => load b >>= fun y => k y l)
  | 0, _, k => by simp [loadN]
  | n+1, a, k => by
    simp only [loadN, bind_assoc, pure_bind]
    rw [load_load_comm]
    congr 1; funext x
    exact load_loadN_comm b n (a + 1) (fun y l => k y (x :: l))

theorem store_storeN_comm {f : Int} (z : BitVec w) : ∀ (l : List (BitVec w)) (a : Int), (f < a ∨ a + l.length ≤ f) → ∀ k : M w α,
    (store f z >>= fun _ => storeN l a >>= fun _ => k) = (storeN l a >>= fun _ => store f z >>= fun _ => k)
  | [], _, _, k => by simp [storeN]
  | x :: l, a, h, k => by
    simp only [storeN, bind_assoc]
    simp only [List.length_cons] at h
    rw [store_store_comm (by omega)]
    congr 1; funext _
    exact store_storeN_comm z l (a + 1) (by omega) k

/-! ### Alignment -/

theorem Simd.alVec_of_al64 {U : Simd} (hU : U.Ok) {a : Int} (h : U.al64 a = true) (k : Nat) :
    U.alVec (a + k * U.lanes) = true := by
  simp only [Simd.al64, Simd.alVec, decide_eq_true_eq] at *
  obtain ⟨q, hq⟩ := hU
  have h64 : ((U.lanes * U.bytes : Nat) : Int) ∣ 64 := ⟨q, by exact_mod_cast hq⟩
  apply Int.emod_eq_zero_of_dvd
  have h1 : ((U.lanes * U.bytes : Nat) : Int) ∣ U.org + a * U.bytes := Int.dvd_trans h64 (Int.dvd_of_emod_eq_zero h)
  have h2 : ((U.lanes * U.bytes : Nat) : Int) ∣ (k : Int) * U.lanes * U.bytes := ⟨k, by push_cast; ring⟩
  have := Int.dvd_add h1 h2
  rw [show U.org + (a + (k : Int) * U.lanes) * U.bytes = U.org + a * U.bytes + (k : Int) * U.lanes * U.bytes by ring]
  exact this

theorem toSize_ge {a : Int} (h : 0 ≤ a) (n : Nat) : toSize a ≥ n ↔ (n : Int) ≤ a := by
  unfold toSize; rw [if_pos h]; omega

theorem toSize_gt {a : Int} (h : 0 ≤ a) (n : Nat) : toSize a > n ↔ (n : Int) < a := by
  unfold toSize; rw [if_pos h]; omega

/-! ### fill -/

theorem stdFillN_eq (x : BitVec w) : ∀ (n : Nat) (d : Int), stdFillN x n d = storeN (List.replicate n x) d
  | 0, _ => rfl
  | n+1, d => by
    simp only [stdFillN, List.replicate_succ, storeN]
    congr 1; funext _
    exact stdFillN_eq x n (d + 1)

theorem stdFillN_add (x : BitVec w) : ∀ (a b : Nat) (d : Int),
    stdFillN x (a + b) d = (stdFillN x a d >>= fun _ => stdFillN x b (d + a))
  | 0, b, d => by simp [stdFillN]
  | a+1, b, d => by
    rw [show a + 1 + b = (a + b) + 1 by omega]
    simp only [stdFillN, bind_assoc]
    congr 1; funext _
    rw [stdFillN_add x a b (d + 1)]
    congr 1; funext _
    congr 1; push_cast; ring

theorem hwyFillAlign_eq (U : Simd) (x : BitVec w) (last : Int) : ∀ (fuel : Nat) (it : Int), it ≤ last → (last - it).toNat < fuel →
    ∃ j : Nat, it + j ≤ last ∧ (it + j = last ∨ U.al64 (it + j) = true) ∧
      hwyFillAlign U x last fuel it = (stdFillN x j it >>= fun _ => pure (it + j))
  | 0, it, _, h => by omega
  | fuel+1, it, hle, h => by
    unfold hwyFillAlign
    by_cases hc : it ≠ last ∧ ¬ U.al64 it = true
    · rw [if_pos hc]
      obtain ⟨j, h1, h2, h3⟩ := hwyFillAlign_eq U x last fuel (it + 1) (by omega) (by omega)
      refine ⟨j + 1, by push_cast; omega, ?_, ?_⟩
      · push_cast
        rw [show it + ((j : Int) + 1) = it + 1 + j by omega]; exact h2
      · rw [h3]
        simp only [stdFillN, bind_assoc]
        congr 1; funext _; congr 1; funext _; congr 1; push_cast; ring
    · rw [if_neg hc]
      refine ⟨0, by simpa using hle, ?_, by simp [stdFillN]⟩
      by_cases he : it = last
      · left; simpa using he
      · right; simpa using by by_contra hb; exact hc ⟨he, by simpa using hb⟩

theorem hwyFillVec_eq {U : Simd} (x : BitVec w) (last : Int) : ∀ (fuel : Nat) (it : Int), it ≤ last → (last - it).toNat < fuel →
    (it = last ∨ ∀ k : Nat, U.alVec (it + k * U.lanes) = true) →
    ∃ j : Nat, it + j ≤ last ∧
      hwyFillVec U x last fuel it = (stdFillN x j it >>= fun _ => pure (it + j))
  | 0, it, _, h, _ => by omega
  | fuel+1, it, hle, h, hal => by
    have hL := U.lanes_pos
    unfold hwyFillVec
    have hsz := toSize_ge (a := last - it) (by omega) U.lanes
    by_cases hc : (U.lanes : Int) ≤ last - it
    · rw [if_pos (hsz.2 hc)]
      have hal := hal.resolve_left (by omega)
      have h0 : U.alVec it = true := by simpa using hal 0
      obtain ⟨j, h1, h3⟩ := hwyFillVec_eq (U := U) x last fuel (it + U.lanes) (by omega) (by omega)
        (Or.inr (fun k => by
          have := hal (k + 1); push_cast at this
          rw [show it + ((k : Int) + 1) * U.lanes = it + U.lanes + k * U.lanes by ring] at this; exact this))
      refine ⟨U.lanes + j, by push_cast; omega, ?_⟩
      rw [h3, stdFillN_add, bind_assoc]
      unfold vstore
      rw [if_pos h0, ← stdFillN_eq]
      congr 1; funext _; congr 1; funext _; congr 1; push_cast; ring
    · rw [if_neg (fun h => hc (hsz.1 h))]
      exact ⟨0, by simpa using hle, by simp [stdFillN]⟩

theorem hwyFillWords_eq {U : Simd} (hU : U.Ok) (it last : Int) (x : BitVec w) (h : it ≤ last) :
    hwyFillWords U it last x = stdFill it last x := by
  unfold hwyFillWords
  obtain ⟨j, h1, h2, h3⟩ := hwyFillAlign_eq U x last ((last - it).toNat + 1) it h (by omega)
  rw [h3]
  simp only [bind_assoc, pure_bind]
  obtain ⟨k, h4, h5⟩ := hwyFillVec_eq (U := U) x last ((last - (it + j)).toNat + 1) (it + j) h1 (by omega)
    (h2.imp id (fun h k => Simd.alVec_of_al64 hU h k))
  simp only [h5, bind_assoc, pure_bind]
  unfold stdFill wordDist
  rw [if_pos h, if_pos (by omega)]
  simp only [pure_bind]
  rw [show (last - it).toNat = j + (k + (last - (it + j + k)).toNat) by omega, stdFillN_add, stdFillN_add]

/-! ### transform -/

theorem stdTransformN_add (f : BitVec w → BitVec w) : ∀ (a b : Nat) (s d : Int),
    stdTransformN f (a + b) s d = (stdTransformN f a s d >>= fun d' => stdTransformN f b (s + a) d')
  | 0, b, s, d => by simp [stdTransformN]
  | a+1, b, s, d => by
    rw [show a + 1 + b = (a + b) + 1 by omega]
    simp only [stdTransformN, bind_assoc]
    congr 1; funext x; congr 1; funext _
    rw [stdTransformN_add f a b (s + 1) (d + 1)]
    congr 1; funext d'
    congr 1; push_cast; ring

theorem stdTransformN_ret (f : BitVec w → BitVec w) : ∀ (n : Nat) (s d : Int) (k : Int → M w α),
    (stdTransformN f n s d >>= k) = (stdTransformN f n s d >>= fun _ => k (d + n))
  | 0, s, d, k => by simp [stdTransformN]
  | n+1, s, d, k => by
    simp only [stdTransformN, bind_assoc]
    congr 1; funext x; congr 1; funext _
    rw [stdTransformN_ret f n (s + 1) (d + 1)]
    congr 1; funext _
    congr 1; push_cast; ring

theorem vecTransform_eq (f : BitVec w → BitVec w) : ∀ (n : Nat) (s d : Int), (d ≤ s ∨ s + n ≤ d) → ∀ k : M w α,
    (loadN n s >>= fun l => storeN (l.map f) d >>= fun _ => k) = (stdTransformN f n s d >>= fun _ => k)
  | 0, s, d, _, k => by simp [loadN, storeN, stdTransformN]
  | n+1, s, d, h, k => by
    simp only [loadN, stdTransformN, bind_assoc, pure_bind, List.map_cons, storeN]
    congr 1; funext x
    rw [← store_loadN_comm (f x) n (s + 1) (by omega)]
    congr 1; funext _
    exact vecTransform_eq f n (s + 1) (d + 1) (by omega) k

theorem hwyNotAlign_eq (U : Simd) (last : Int) : ∀ (fuel : Nat) (s d : Int), s ≤ last → (last - s).toNat < fuel →
    ∃ j : Nat, s + j ≤ last ∧ (s + j = last ∨ U.al64 (s + j) = true) ∧
      (hwyNotAlign U last fuel s d : M w _) = (stdTransformN (~~~ ·) j s d >>= fun _ => pure (s + j, d + j))
  | 0, s, d, _, h => by omega
  | fuel+1, s, d, hle, h => by
    unfold hwyNotAlign
    by_cases hc : s ≠ last ∧ ¬ U.al64 s = true
    · rw [if_pos hc]
      obtain ⟨j, h1, h2, h3⟩ := hwyNotAlign_eq U last fuel (s + 1) (d + 1) (by omega) (by omega)
      refine ⟨j + 1, by push_cast; omega, ?_, ?_⟩
      · push_cast
        rw [show s + ((j : Int) + 1) = s + 1 + j by omega]; exact h2
      · rw [h3]
        simp only [stdTransformN, bind_assoc]
        congr 1; funext x; congr 1; funext _; congr 1; funext _
        rw [show s + 1 + (j : Int) = s + ((j + 1 : Nat) : Int) by push_cast; ring,
          show d + 1 + (j : Int) = d + ((j + 1 : Nat) : Int) by push_cast; ring]
    · rw [if_neg hc]
      refine ⟨0, by simpa using hle, ?_, by simp [stdTransformN]⟩
      by_cases he : s = last
      · left; simpa using he
      · right; simpa using by by_contra hb; exact hc ⟨he, by simpa using hb⟩

theorem hwyNotVec_eq {U : Simd} (last : Int) (oa : Bool) : ∀ (fuel : Nat) (s d : Int), s ≤ last → (last - s).toNat < fuel →
    (d ≤ s ∨ last ≤ d) →
    (s = last ∨ ∀ k : Nat, U.alVec (s + k * U.lanes) = true) →
    (oa = true → ∀ k : Nat, U.alVec (d + k * U.lanes) = true) →
    ∃ j : Nat, s + j ≤ last ∧
      (hwyNotVec U oa last fuel s d : M w _) = (stdTransformN (~~~ ·) j s d >>= fun _ => pure (s + j, d + j))
  | 0, s, d, _, h, _, _, _ => by omega
  | fuel+1, s, d, hle, h, hov, hal, hd => by
    have hL := U.lanes_pos
    unfold hwyNotVec
    have hsz := toSize_ge (a := last - s) (by omega) U.lanes
    by_cases hc : (U.lanes : Int) ≤ last - s
    · rw [if_pos (hsz.2 hc)]
      have hal := hal.resolve_left (by omega)
      have h0 : U.alVec s = true := by simpa using hal 0
      have hstep : ∀ (a : Int), (∀ k : Nat, U.alVec (a + k * U.lanes) = true) → ∀ k : Nat, U.alVec (a + U.lanes + k * U.lanes) = true := by
        intro a ha k
        have := ha (k + 1); push_cast at this
        rw [show a + ((k : Int) + 1) * U.lanes = a + U.lanes + k * U.lanes by ring] at this; exact this
      obtain ⟨j, h1, h3⟩ := hwyNotVec_eq (U := U) last oa fuel (s + U.lanes) (d + U.lanes) (by omega) (by omega) (by omega)
        (Or.inr (hstep s hal)) (fun h => hstep d (hd h))
      refine ⟨U.lanes + j, by push_cast; omega, ?_⟩
      rw [h3, stdTransformN_add, bind_assoc, stdTransformN_ret _ U.lanes s d]
      unfold vload
      rw [if_pos h0]
      have hst : ∀ l : List (BitVec w), vstoreEither U oa (l.map (~~~ ·)) d = storeN (l.map (~~~ ·)) d := by
        intro l
        unfold vstoreEither vstore vstoreU
        by_cases ho : oa = true
        · have : U.alVec d = true := by simpa using hd ho 0
          simp [ho, this]
        · simp [ho]
      simp only [hst]
      rw [vecTransform_eq _ _ _ _ (by omega)]
      congr 1; funext _; congr 1; funext _
      rw [show s + (U.lanes : Int) + (j : Int) = s + ((U.lanes + j : Nat) : Int) by push_cast; ring,
          show d + (U.lanes : Int) + (j : Int) = d + ((U.lanes + j : Nat) : Int) by push_cast; ring]
    · rw [if_neg (fun h => hc (hsz.1 h))]
      exact ⟨0, by simpa using hle, by simp [stdTransformN]⟩

theorem hwyNotWords_eq {U : Simd} (hU : U.Ok) (s last d : Int) (h : s ≤ last) (hov : d ≤ s ∨ last ≤ d) :
    (hwyNotWords U s last d : M w _) = stdTransform s last d (~~~ ·) := by
  unfold hwyNotWords
  obtain ⟨j, h1, h2, h3⟩ := hwyNotAlign_eq (w := w) U last ((last - s).toNat + 1) s d h (by omega)
  rw [h3]
  simp only [bind_assoc, pure_bind]
  obtain ⟨k, h4, h5⟩ := hwyNotVec_eq (w := w) (U := U) last (U.al64 (d + j)) ((last - (s + j)).toNat + 1) (s + j) (d + j) h1 (by omega) (by omega)
    (h2.imp id (fun h k => Simd.alVec_of_al64 hU h k)) (fun h k => Simd.alVec_of_al64 hU h k)
  simp only [h5, bind_assoc, pure_bind]
  unfold stdTransform wordDist
  rw [if_pos h, if_pos (by omega)]
  simp only [pure_bind]
  rw [show (last - s).toNat = j + (k + (last - (s + j + k)).toNat) by omega]
  conv_rhs => rw [stdTransformN_add, stdTransformN_ret _ j s d]
  congr 1; funext _
  conv_rhs => rw [stdTransformN_add, stdTransformN_ret _ k (s + j) (d + j)]

/-! ### shift_left -/

/-- `n` words of the result of a funnel shift, upwards. -/
def shlSteps (g : BitVec w → BitVec w → BitVec w) : Nat → Int → Int → M w Unit
  | 0, _, _ => pure ()
  | n+1, f, m => do
    let x ← load m
    let y ← load (m + 1)
    store f (g x y)
    shlSteps g n (f + 1) (m + 1)

theorem shlSteps_add (g : BitVec w → BitVec w → BitVec w) : ∀ (a b : Nat) (f m : Int),
    shlSteps g (a + b) f m = (shlSteps g a f m >>= fun _ => shlSteps g b (f + a) (m + a))
  | 0, b, f, m => by simp [shlSteps]
  | a+1, b, f, m => by
    rw [show a + 1 + b = (a + b) + 1 by omega]
    simp only [shlSteps, bind_assoc]
    congr 1; funext x; congr 1; funext y; congr 1; funext _
    rw [shlSteps_add g a b (f + 1) (m + 1)]
    congr 1; funext _
    congr 1 <;> push_cast <;> ring

theorem vecShl_eq (g : BitVec w → BitVec w → BitVec w) : ∀ (n : Nat) (f m : Int), f ≤ m → ∀ k : M w α,
    (loadN n m >>= fun a => loadN n (m + 1) >>= fun b => storeN (List.zipWith g a b) f >>= fun _ => k)
      = (shlSteps g n f m >>= fun _ => k)
  | 0, f, m, _, k => by simp [loadN, storeN, shlSteps]
  | n+1, f, m, h, k => by
    simp only [loadN, shlSteps, bind_assoc, pure_bind, List.zipWith_cons_cons, storeN]
    congr 1; funext x
    rw [← load_loadN_comm]
    congr 1; funext y
    have := vecShl_eq g n (f + 1) (m + 1) (by omega) k
    rw [← this]
    rw [store_loadN_comm (g x y) n (m + 1) (by omega)]
    congr 1; funext a
    rw [store_loadN_comm (g x y) n (m + 1 + 1) (by omega)]

/-- What `_shrd` computes for a count inside the word. -/
def funnel (o : Nat) (x y : BitVec w) : BitVec w := (x >>> o) ||| (y <<< (w - o))

theorem shrd_funnel (S : ShiftSem w) (x y : BitVec w) {o : Nat} (h0 : 0 < o) (ho : o < w) : shrd S x y o = .ok (funnel o x y) := by
  have := S.le_pw
  unfold shrd ShiftSem.shr ShiftSem.shl funnel
  rw [if_pos ho, if_pos (by omega), if_pos (by omega)]
  rfl

theorem lift_ok_bind (a : α) (k : α → M w β) : (lift (.ok a) >>= k) = k a := by
  funext m; rfl

theorem shiftLeftLoop_eq (S : ShiftSem w) {o : Nat} (h0 : 0 < o) (ho : o < w) (last : Int) : ∀ (fuel : Nat) (f m : Int),
    (last - m).toNat < fuel → m ≤ last →
    shiftLeftLoop S o last fuel f m = (shlSteps (funnel o) (last - m - 1).toNat f m >>= fun _ =>
      pure (f + (last - m - 1).toNat, m + (last - m - 1).toNat))
  | 0, _, _, h, _ => by omega
  | fuel+1, f, m, h, hle => by
    unfold shiftLeftLoop
    by_cases hc : m + 1 < last
    · rw [if_pos hc]
      obtain ⟨k, hk⟩ : ∃ k : Nat, (last - m - 1).toNat = k + 1 := ⟨(last - m - 1).toNat - 1, by omega⟩
      rw [hk]
      simp only [shlSteps, bind_assoc, shrd_funnel S _ _ h0 ho, lift_ok_bind]
      congr 1; funext x; congr 1; funext y; congr 1; funext _
      rw [shiftLeftLoop_eq S h0 ho last fuel (f + 1) (m + 1) (by omega) (by omega),
        show (last - (m + 1) - 1).toNat = k by omega]
      congr 1; funext _
      rw [show f + 1 + (k : Int) = f + ((k + 1 : Nat) : Int) by push_cast; ring,
        show m + 1 + (k : Int) = m + ((k + 1 : Nat) : Int) by push_cast; ring]
    · rw [if_neg hc, show (last - m - 1).toNat = 0 by omega]
      simp [shlSteps]

theorem hwyShlAlign_eq (S : ShiftSem w) (U : Simd) {o : Nat} (h0 : 0 < o) (ho : o < w) (last : Int) : ∀ (fuel : Nat) (f m : Int),
    m ≤ last → (last - m).toNat < fuel →
    ∃ j : Nat, m + j ≤ last ∧ (j = 0 ∨ m + j < last) ∧ (¬ m + j + 1 < last ∨ U.al64 (f + j) = true) ∧
      hwyShlAlign S U o last fuel f m = (shlSteps (funnel o) j f m >>= fun _ => pure (f + j, m + j))
  | 0, _, _, _, h => by omega
  | fuel+1, f, m, hle, h => by
    unfold hwyShlAlign
    by_cases hc : m + 1 < last ∧ ¬ U.al64 f = true
    · rw [if_pos hc]
      obtain ⟨j, h1, h1', h2, h3⟩ := hwyShlAlign_eq S U h0 ho last fuel (f + 1) (m + 1) (by omega) (by omega)
      refine ⟨j + 1, by push_cast; omega, by right; push_cast; omega, ?_, ?_⟩
      · push_cast
        rw [show m + ((j : Int) + 1) = m + 1 + j by omega, show f + ((j : Int) + 1) = f + 1 + j by omega]; exact h2
      · rw [h3]
        simp only [shlSteps, bind_assoc, shrd_funnel S _ _ h0 ho, lift_ok_bind]
        congr 1; funext x; congr 1; funext y; congr 1; funext _; congr 1; funext _
        rw [show f + 1 + (j : Int) = f + ((j + 1 : Nat) : Int) by push_cast; ring,
          show m + 1 + (j : Int) = m + ((j + 1 : Nat) : Int) by push_cast; ring]
    · rw [if_neg hc]
      refine ⟨0, by simpa using hle, Or.inl rfl, ?_, by simp [shlSteps]⟩
      by_cases he : m + 1 < last
      · right; simpa using by by_contra hb; exact hc ⟨he, by simpa using hb⟩
      · left; simpa using he

theorem hwyShlVec_eq {U : Simd} {o : Nat} (h0 : 0 < o) (ho : o < w) (last : Int) (e : Nat) : ∀ (fuel : Nat) (f m : Int),
    m ≤ last → (last - m).toNat < fuel → f ≤ m →
    (¬ m + 1 < last ∨ ∀ k : Nat, U.alVec (f + k * U.lanes) = true) →
    ∃ j : Nat, m + j ≤ last ∧ (j = 0 ∨ m + j < last) ∧
      (hwyShlVec U o last e fuel f m : M w _) = (shlSteps (funnel o) j f m >>= fun _ => pure (f + j, m + j))
  | 0, _, _, _, h, _, _ => by omega
  | fuel+1, f, m, hle, h, hfm, hal => by
    have hL := U.lanes_pos
    unfold hwyShlVec
    have hsz := toSize_ge (a := last - m) (by omega) (U.lanes + 10 + e)
    by_cases hc : ((U.lanes + 10 + e : Nat) : Int) ≤ last - m
    · rw [if_pos (hsz.2 hc)]
      push_cast at hc
      have hal := hal.resolve_left (by omega)
      have hf0 : U.alVec f = true := by simpa using hal 0
      obtain ⟨j, h1, h1', h3⟩ := hwyShlVec_eq (U := U) h0 ho last e fuel (f + U.lanes) (m + U.lanes) (by omega) (by omega) (by omega)
        (Or.inr (fun k => by
          have := hal (k + 1); push_cast at this
          rw [show f + ((k : Int) + 1) * U.lanes = f + U.lanes + k * U.lanes by ring] at this; exact this))
      refine ⟨U.lanes + j, by push_cast; omega, by right; push_cast; omega, ?_⟩
      rw [h3, shlSteps_add, bind_assoc]
      unfold vloadU vshr vshl vstore
      simp only [lift_ok_bind, if_pos ho, if_pos (by omega : w - o < w), hf0, if_true, List.zipWith_map]
      rw [← vecShl_eq _ _ _ _ hfm]
      congr 1; funext a; congr 1; funext b; congr 1; funext _; congr 1; funext _
      rw [show f + (U.lanes : Int) + (j : Int) = f + ((U.lanes + j : Nat) : Int) by push_cast; ring,
        show m + (U.lanes : Int) + (j : Int) = m + ((U.lanes + j : Nat) : Int) by push_cast; ring]
    · rw [if_neg (fun h => hc (hsz.1 h))]
      exact ⟨0, by simpa using hle, Or.inl rfl, by simp [shlSteps]⟩

theorem hwyShlWords_eq (S : ShiftSem w) {U : Simd} (hU : U.Ok) {o : Nat} (h0 : 0 < o) (ho : o < w) (last : BitIter w) (f m : Int)
    (hfm : f ≤ m) (hle : m ≤ last.base) :
    hwyShlWords S U o last f m = shiftLeftLoop S o last.base ((last.base - m).toNat + 1) f m := by
  unfold hwyShlWords
  obtain ⟨j, h1, h1', h2, h3⟩ := hwyShlAlign_eq S U h0 ho last.base ((last.base - m).toNat + 1) f m hle (by omega)
  rw [h3]
  simp only [bind_assoc, pure_bind]
  obtain ⟨k, h4, h4', h5⟩ := hwyShlVec_eq (w := w) (U := U) h0 ho last.base (if last.pos = 0 then 0 else 1) ((last.base - (m + j)).toNat + 1)
    (f + j) (m + j) h1 (by omega) (by omega) (h2.imp id (fun h k => Simd.alVec_of_al64 hU h k))
  simp only [h5, bind_assoc, pure_bind]
  rw [shiftLeftLoop_eq S h0 ho _ _ _ _ (by omega) (by omega), shiftLeftLoop_eq S h0 ho _ _ _ _ (by omega) (by omega)]
  have hn : (last.base - m - 1).toNat = j + (k + (last.base - (m + j + k) - 1).toNat) := by omega
  rw [hn, shlSteps_add, shlSteps_add]
  simp only [bind_assoc]
  congr 1; funext _; congr 1; funext _; congr 1; funext _
  congr 2 <;> push_cast <;> ring

/-! ### shift_right -/

/-- `n` words of the result of a funnel shift, downwards. -/
def shrSteps (g : BitVec w → BitVec w → BitVec w) : Nat → Int → Int → M w Unit
  | 0, _, _ => pure ()
  | n+1, l, m => do
    let x ← load (m - 1)
    let y ← load m
    store (l - 1) (g x y)
    shrSteps g n (l - 1) (m - 1)

theorem shrSteps_add (g : BitVec w → BitVec w → BitVec w) : ∀ (a b : Nat) (l m : Int),
    shrSteps g (a + b) l m = (shrSteps g a l m >>= fun _ => shrSteps g b (l - a) (m - a))
  | 0, b, l, m => by simp [shrSteps]
  | a+1, b, l, m => by
    rw [show a + 1 + b = (a + b) + 1 by omega]
    simp only [shrSteps, bind_assoc]
    congr 1; funext x; congr 1; funext y; congr 1; funext _
    rw [shrSteps_add g a b (l - 1) (m - 1)]
    congr 1; funext _
    congr 1 <;> push_cast <;> ring

theorem loadN_congr : ∀ (n : Nat) (a : Int) {k k' : List (BitVec w) → M w α}, (∀ l, l.length = n → k l = k' l) →
    (loadN n a >>= k) = (loadN n a >>= k')
  | 0, a, k, k', h => by simpa [loadN] using h [] rfl
  | n+1, a, k, k', h => by
    simp only [loadN, bind_assoc, pure_bind]
    congr 1; funext x
    exact loadN_congr n (a + 1) (fun l hl => h (x :: l) (by simp [hl]))

theorem loadN_snoc : ∀ (n : Nat) (a : Int),
    (loadN (n + 1) a : M w _) = (loadN n a >>= fun l => load (a + n) >>= fun x => pure (l ++ [x]))
  | 0, a => by simp [loadN]
  | n+1, a => by
    rw [loadN, loadN_snoc n (a + 1)]
    conv_rhs => rw [loadN]
    simp only [bind_assoc, pure_bind, List.cons_append]
    congr 1; funext x; congr 1; funext l
    rw [show a + 1 + (n : Int) = a + ((n + 1 : Nat) : Int) by push_cast; ring]

theorem storeN_snoc : ∀ (l : List (BitVec w)) (z : BitVec w) (a : Int),
    storeN (l ++ [z]) a = (storeN l a >>= fun _ => store (a + l.length) z)
  | [], z, a => by simp [storeN]
  | x :: l, z, a => by
    simp only [List.cons_append, storeN, bind_assoc]
    congr 1; funext _
    rw [storeN_snoc l z (a + 1)]
    congr 1; funext _
    congr 1; simp only [List.length_cons]; push_cast; ring

theorem vecShr_eq (g : BitVec w → BitVec w → BitVec w) : ∀ (n : Nat) (l m : Int), m < l → ∀ k : M w α,
    (loadN n (m - n) >>= fun a => loadN n (m - n + 1) >>= fun b => storeN (List.zipWith g a b) (l - n) >>= fun _ => k)
      = (shrSteps g n l m >>= fun _ => k)
  | 0, l, m, _, k => by simp [loadN, storeN, shrSteps]
  | n+1, l, m, h, k => by
    have ih := vecShr_eq g n (l - 1) (m - 1) (by omega) k
    simp only [shrSteps, bind_assoc]
    rw [← ih]
    rw [loadN_snoc, loadN_snoc]
    simp only [bind_assoc, pure_bind]
    have e1 : m - ((n + 1 : Nat) : Int) = m - 1 - n := by push_cast; ring
    have e2 : m - 1 - (n : Int) + n = m - 1 := by ring
    have e3 : m - 1 - (n : Int) + 1 + n = m := by ring
    have e4 : l - ((n + 1 : Nat) : Int) = l - 1 - n := by push_cast; ring
    rw [e1, e2, e3, e4]
    rw [← load_loadN_comm (m - 1) n (m - 1 - n)]
    congr 1; funext x
    -- the load of `m`
    rw [show (loadN n (m - 1 - ↑n) >>= fun a => loadN n (m - 1 - ↑n + 1) >>= fun b => load m >>= fun y =>
        storeN (List.zipWith g (a ++ [x]) (b ++ [y])) (l - 1 - ↑n) >>= fun _ => k) =
        (load m >>= fun y => loadN n (m - 1 - ↑n) >>= fun a => loadN n (m - 1 - ↑n + 1) >>= fun b =>
        storeN (List.zipWith g (a ++ [x]) (b ++ [y])) (l - 1 - ↑n) >>= fun _ => k) from ?_]
    · congr 1; funext y
      rw [store_loadN_comm (g x y) n (m - 1 - n) (by omega)]
      apply loadN_congr; intro a ha
      rw [store_loadN_comm (g x y) n (m - 1 - n + 1) (by omega)]
      apply loadN_congr; intro b hb
      rw [List.zipWith_append (by omega), List.zipWith_cons_cons, List.zipWith_nil_left, storeN_snoc, bind_assoc]
      have hlen : (List.zipWith g a b).length = n := by simp [ha, hb]
      rw [hlen, show l - 1 - (n : Int) + n = l - 1 by ring]
      rw [store_storeN_comm _ _ _ (by right; rw [hlen]; omega)]
    · rw [load_loadN_comm m n (m - 1 - n)]
      congr 1; funext a
      rw [load_loadN_comm m n (m - 1 - n + 1)]

theorem shiftRightLoop_eq (S : ShiftSem w) {o : Nat} (h0 : 0 < o) (ho : o < w) (first : Int) : ∀ (fuel : Nat) (l m : Int),
    (m - first).toNat ≤ fuel → first < m →
    shiftRightLoop S o first fuel (l - 1) (m - 1) = (shrSteps (funnel o) (m - 1 - first).toNat l m >>= fun _ =>
      pure (l - 1 - (m - 1 - first).toNat, m - 1 - (m - 1 - first).toNat))
  | 0, _, _, h, _ => by omega
  | fuel+1, l, m, h, hle => by
    unfold shiftRightLoop
    by_cases hc : m - 1 > first
    · rw [if_pos hc]
      obtain ⟨k, hk⟩ : ∃ k : Nat, (m - 1 - first).toNat = k + 1 := ⟨(m - 1 - first).toNat - 1, by omega⟩
      rw [hk]
      simp only [shrSteps, bind_assoc, shrd_funnel S _ _ h0 ho, lift_ok_bind]
      rw [show m - 1 + 1 = m by ring]
      congr 1; funext x; congr 1; funext y; congr 1; funext _
      rw [shiftRightLoop_eq S h0 ho first fuel (l - 1) (m - 1) (by omega) (by omega),
        show (m - 1 - 1 - first).toNat = k by omega]
      congr 1; funext _
      rw [show l - 1 - 1 - (k : Int) = l - 1 - ((k + 1 : Nat) : Int) by push_cast; ring,
        show m - 1 - 1 - (k : Int) = m - 1 - ((k + 1 : Nat) : Int) by push_cast; ring]
    · rw [if_neg hc, show (m - 1 - first).toNat = 0 by omega]
      simp [shrSteps]

theorem hwyShrAlign_eq (S : ShiftSem w) (U : Simd) {o : Nat} (h0 : 0 < o) (ho : o < w) (first : Int) : ∀ (fuel : Nat) (l m : Int),
    first < m → (m - first).toNat < fuel →
    ∃ j : Nat, first < m - j ∧ (¬ m - j - 1 > first ∨ U.al64 (l - j - U.lanes) = true) ∧
      hwyShrAlign S U o first fuel l m = (shrSteps (funnel o) j l m >>= fun _ => pure (l - j, m - j))
  | 0, _, _, _, h => by omega
  | fuel+1, l, m, hle, h => by
    unfold hwyShrAlign
    by_cases hc : m - 1 > first ∧ ¬ U.al64 (l - U.lanes) = true
    · rw [if_pos hc]
      obtain ⟨j, h1, h2, h3⟩ := hwyShrAlign_eq S U h0 ho first fuel (l - 1) (m - 1) (by omega) (by omega)
      refine ⟨j + 1, by push_cast; omega, ?_, ?_⟩
      · push_cast
        rw [show m - ((j : Int) + 1) = m - 1 - j by omega, show l - ((j : Int) + 1) = l - 1 - j by omega]; exact h2
      · rw [h3]
        simp only [shrSteps, bind_assoc, shrd_funnel S _ _ h0 ho, lift_ok_bind]
        congr 1; funext x; congr 1; funext y; congr 1; funext _; congr 1; funext _
        rw [show l - 1 - (j : Int) = l - ((j + 1 : Nat) : Int) by push_cast; ring,
          show m - 1 - (j : Int) = m - ((j + 1 : Nat) : Int) by push_cast; ring]
    · rw [if_neg hc]
      refine ⟨0, by simpa using hle, ?_, by simp [shrSteps]⟩
      by_cases he : m - 1 > first
      · right; simpa using by by_contra hb; exact hc ⟨he, by simpa using hb⟩
      · left; simpa using he

theorem Simd.alVec_of_al64_sub {U : Simd} (hU : U.Ok) {a : Int} (h : U.al64 a = true) (k : Nat) :
    U.alVec (a - k * U.lanes) = true := by
  simp only [Simd.al64, Simd.alVec, decide_eq_true_eq] at *
  obtain ⟨q, hq⟩ := hU
  have h64 : ((U.lanes * U.bytes : Nat) : Int) ∣ 64 := ⟨q, by exact_mod_cast hq⟩
  apply Int.emod_eq_zero_of_dvd
  have h1 : ((U.lanes * U.bytes : Nat) : Int) ∣ U.org + a * U.bytes := Int.dvd_trans h64 (Int.dvd_of_emod_eq_zero h)
  have h2 : ((U.lanes * U.bytes : Nat) : Int) ∣ (k : Int) * U.lanes * U.bytes := ⟨k, by push_cast; ring⟩
  have := Int.dvd_sub h1 h2
  rw [show U.org + (a - (k : Int) * U.lanes) * U.bytes = U.org + a * U.bytes - (k : Int) * U.lanes * U.bytes by ring]
  exact this

theorem hwyShrVec_eq {U : Simd} {o : Nat} (h0 : 0 < o) (ho : o < w) (first : Int) : ∀ (fuel : Nat) (l m : Int),
    first < m → (m - first).toNat < fuel → m < l →
    (¬ m - 1 > first ∨ ∀ k : Nat, U.alVec (l - U.lanes - k * U.lanes) = true) →
    ∃ j : Nat, first < m - j ∧
      (hwyShrVec U o first fuel l m : M w _) = (shrSteps (funnel o) j l m >>= fun _ => pure (l - j, m - j))
  | 0, _, _, _, h, _, _ => by omega
  | fuel+1, l, m, hle, h, hml, hal => by
    have hL := U.lanes_pos
    unfold hwyShrVec
    have hsz := toSize_gt (a := m - first) (by omega) (U.lanes + 1)
    by_cases hc : ((U.lanes + 1 : Nat) : Int) < m - first
    · rw [if_pos (hsz.2 hc)]
      push_cast at hc
      have hal := hal.resolve_left (by omega)
      have hf0 : U.alVec (l - U.lanes) = true := by simpa using hal 0
      obtain ⟨j, h1, h3⟩ := hwyShrVec_eq (U := U) h0 ho first fuel (l - U.lanes) (m - U.lanes) (by omega) (by omega) (by omega)
        (Or.inr (fun k => by
          have := hal (k + 1); push_cast at this
          rw [show l - U.lanes - ((k : Int) + 1) * U.lanes = l - U.lanes - U.lanes - k * U.lanes by ring] at this; exact this))
      refine ⟨U.lanes + j, by push_cast; omega, ?_⟩
      rw [h3, shrSteps_add, bind_assoc]
      unfold vloadU vshr vshl vstore
      simp only [lift_ok_bind, if_pos ho, if_pos (by omega : w - o < w), hf0, if_true, List.zipWith_map]
      rw [← vecShr_eq _ _ _ _ hml]
      congr 1; funext a; congr 1; funext b; congr 1; funext _; congr 1; funext _
      rw [show l - (U.lanes : Int) - (j : Int) = l - ((U.lanes + j : Nat) : Int) by push_cast; ring,
        show m - (U.lanes : Int) - (j : Int) = m - ((U.lanes + j : Nat) : Int) by push_cast; ring]
    · rw [if_neg (fun h => hc (hsz.1 h))]
      exact ⟨0, by simpa using hle, by simp [shrSteps]⟩

theorem hwyShrLoop_eq (S : ShiftSem w) {U : Simd} (hU : U.Ok) {o : Nat} (h0 : 0 < o) (ho : o < w) (first l m : Int)
    (hml : m < l) (hfm : first < m) :
    hwyShrLoop S U o first l m = shiftRightLoop S o first ((m - first).toNat + 1) (l - 1) (m - 1) := by
  unfold hwyShrLoop
  obtain ⟨j, h1, h2, h3⟩ := hwyShrAlign_eq S U h0 ho first ((m - first).toNat + 1) l m hfm (by omega)
  rw [h3]
  simp only [bind_assoc, pure_bind]
  obtain ⟨k, h4, h5⟩ := hwyShrVec_eq (w := w) (U := U) h0 ho first ((m - j - first).toNat + 1)
    (l - j) (m - j) h1 (by omega) (by omega) (h2.imp id (fun h k => Simd.alVec_of_al64_sub hU h k))
  simp only [h5, bind_assoc, pure_bind]
  rw [shiftRightLoop_eq S h0 ho _ _ _ _ (by omega) (by omega), shiftRightLoop_eq S h0 ho _ _ _ _ (by omega) (by omega)]
  have hn : (m - 1 - first).toNat = j + (k + (m - j - k - 1 - first).toNat) := by omega
  rw [hn, shrSteps_add, shrSteps_add]
  simp only [bind_assoc]
  congr 1; funext _; congr 1; funext _; congr 1; funext _
  congr 2 <;> push_cast <;> ring

/-! ### find -/

/-- The word holds the value searched for. -/
def hasVal (v : Bool) (x : BitVec w) : Bool := if v then decide (x ≠ 0#w) else decide (x ≠ BitVec.allOnes w)

theorem findWords_found {it : Int} {last : BitIter w} {v : Bool} {m : Mem w} {x : BitVec w} (hlt : it < last.base) (hx : m it = some x)
    (hv : hasVal v x = true) : findWords it last v m = (BitIter.mk? it (tzFor v x) >>= fun r => pure r) m := by
  unfold findWords stdFindIf wordDist
  rw [if_pos (by omega)]
  obtain ⟨k, hk⟩ : ∃ k : Nat, (last.base - it).toNat = k + 1 := ⟨(last.base - it).toNat - 1, by omega⟩
  simp only [pure_bind, hk, stdFindIfN, bind_assoc]
  have hv' : (if v then decide (x ≠ 0#w) else decide (x ≠ BitVec.allOnes w)) = true := hv
  rw [M_bind_apply]
  simp only [load, hx, hv', if_true, pure_bind]
  rw [if_pos (by omega : it ≠ last.base), M_bind_apply]
  simp only [load, hx]
  simp

theorem findWords_skip {it : Int} {last : BitIter w} {v : Bool} {m : Mem w} {x : BitVec w} (hlt : it < last.base) (hx : m it = some x)
    (hv : hasVal v x = false) : findWords it last v m = findWords (it + 1) last v m := by
  unfold findWords stdFindIf wordDist
  rw [if_pos (by omega), if_pos (by omega)]
  obtain ⟨k, hk⟩ : ∃ k : Nat, (last.base - it).toNat = k + 1 := ⟨(last.base - it).toNat - 1, by omega⟩
  simp only [pure_bind, hk, stdFindIfN, bind_assoc]
  have hv' : (if v then decide (x ≠ 0#w) else decide (x ≠ BitVec.allOnes w)) = false := hv
  rw [M_bind_apply]
  simp only [load, hx, hv', Bool.false_eq_true, if_false]
  rw [show (last.base - (it + 1)).toNat = k by omega]

theorem findWords_skipN {last : BitIter w} {v : Bool} {m : Mem w} : ∀ (n : Nat) (it : Int), it + n ≤ last.base →
    (∀ j : Nat, j < n → ∃ x, m (it + j) = some x ∧ hasVal v x = false) → findWords it last v m = findWords (it + n) last v m
  | 0, it, _, _ => by simp
  | n+1, it, h, hx => by
    obtain ⟨x, h1, h2⟩ := hx 0 (by omega)
    rw [findWords_skip (x := x) (by push_cast at h; omega) (by simpa using h1) h2]
    rw [findWords_skipN n (it + 1) (by push_cast at h; omega)]
    · congr 1; push_cast; ring
    · intro j hj
      obtain ⟨x, h1, h2⟩ := hx (j + 1) (by omega)
      exact ⟨x, by push_cast at h1; rw [show it + 1 + (j : Int) = it + (j + 1) by ring]; exact h1, h2⟩

/-- Continue after one of the two search loops. -/
def afterSearch (K : Int → M w (BitIter w)) : BitIter w ⊕ Int → M w (BitIter w)
  | .inl r => pure r
  | .inr it => K it

theorem hwyFindAlign_eq (U : Simd) (v : Bool) (last : BitIter w) (m : Mem w) (K : Int → M w (BitIter w)) : ∀ (fuel : Nat) (it : Int),
    it ≤ last.base → (last.base - it).toNat < fuel → (∀ c, it ≤ c → c < last.base → ∃ x, m c = some x) →
    (∀ it', it ≤ it' → it' ≤ last.base → (it' = last.base ∨ U.al64 it' = true) → K it' m = findWords it' last v m) →
    (hwyFindAlign U v last.base fuel it >>= afterSearch K) m = findWords it last v m
  | 0, _, _, h, _, _ => by omega
  | fuel+1, it, hle, h, hm, hK => by
    unfold hwyFindAlign
    by_cases hc : it ≠ last.base ∧ ¬ U.al64 it = true
    · rw [if_pos hc]
      obtain ⟨x, hx⟩ := hm it (by omega) (by omega)
      simp only [bind_assoc]
      rw [M_bind_apply]
      simp only [load, hx]
      by_cases hv : (v = true ∧ x = 0#w) ∨ (v = false ∧ x = BitVec.allOnes w)
      · rw [if_pos hv, findWords_skip (x := x) (by omega) hx (by
          unfold hasVal
          rcases hv with ⟨h1, h2⟩ | ⟨h1, h2⟩ <;> simp [h1, h2])]
        exact hwyFindAlign_eq U v last m K fuel (it + 1) (by omega) (by omega) (fun c h1 h2 => hm c (by omega) h2)
          (fun it' h1 h2 h3 => hK it' (by omega) h2 h3)
      · rw [if_neg hv, findWords_found (x := x) (by omega) hx (by
          unfold hasVal
          cases v <;> simp at hv ⊢ <;> exact hv)]
        simp [afterSearch]
    · rw [if_neg hc]
      simp only [pure_bind, afterSearch]
      refine hK it (by omega) hle ?_
      by_cases he : it = last.base
      · exact Or.inl he
      · right; by_contra hb; exact hc ⟨he, by simpa using hb⟩

theorem loadN_ok {m : Mem w} : ∀ (n : Nat) (a : Int), (∀ j : Nat, j < n → ∃ x, m (a + j) = some x) →
    ∃ l, loadN n a m = .ok (l, m) ∧ l.length = n ∧ ∀ j : Nat, j < n → m (a + j) = l[j]?
  | 0, a, _ => ⟨[], rfl, rfl, by omega⟩
  | n+1, a, h => by
    obtain ⟨x, hx⟩ := h 0 (by omega)
    simp only [Nat.cast_zero, add_zero] at hx
    obtain ⟨l, h1, h2, h3⟩ := loadN_ok n (a + 1) (fun j hj => by
      obtain ⟨y, hy⟩ := h (j + 1) (by omega)
      exact ⟨y, by push_cast at hy; rw [show a + 1 + (j : Int) = a + (j + 1) by ring]; exact hy⟩)
    refine ⟨x :: l, ?_, by simp [h2], ?_⟩
    · unfold loadN
      rw [M_bind_apply]
      simp only [load, hx]
      rw [M_bind_apply, h1]
      rfl
    · intro j hj
      cases j with
      | zero => simpa using hx
      | succ j =>
        have := h3 j (by omega)
        simp only [List.getElem?_cons_succ, ← this]
        congr 1; push_cast; ring

theorem hasVal_gt (v : Bool) (x : BitVec w) : hasVal v x = decide ((if v = false then ~~~ x else x) > 0#w) := by
  have hpos : ∀ y : BitVec w, (y > 0#w) ↔ y ≠ 0#w := by
    intro y
    constructor
    · rintro h rfl; exact absurd h (by simp)
    · intro h
      show (0#w).toNat < y.toNat
      have : y.toNat ≠ 0 := fun e => h (by apply BitVec.eq_of_toNat_eq; simpa using e)
      simp; omega
  unfold hasVal
  cases v
  · simp only [Bool.false_eq_true, if_false, if_true, hpos]
    congr 1
    apply propext
    apply not_congr
    constructor
    · rintro rfl; simp
    · intro h
      have : ~~~ (~~~ x) = ~~~ (0#w) := by rw [h]
      simpa using this
  · simp only [if_true, hpos, Bool.true_eq_false, if_false]

theorem hwyFindVec_eq {U : Simd} (v : Bool) (last : BitIter w) (m : Mem w) (K : Int → M w (BitIter w)) : ∀ (fuel : Nat) (it : Int),
    it ≤ last.base → (last.base - it).toNat < fuel → (∀ c, it ≤ c → c < last.base → ∃ x, m c = some x) →
    (it = last.base ∨ ∀ k : Nat, U.alVec (it + k * U.lanes) = true) →
    (∀ it', it ≤ it' → it' ≤ last.base → K it' m = findWords it' last v m) →
    (hwyFindVec U v last.base fuel it >>= afterSearch K) m = findWords it last v m
  | 0, _, _, h, _, _, _ => by omega
  | fuel+1, it, hle, h, hm, hal, hK => by
    have hL := U.lanes_pos
    unfold hwyFindVec
    have hsz := toSize_ge (a := last.base - it) (by omega) U.lanes
    by_cases hc : (U.lanes : Int) ≤ last.base - it
    · rw [if_pos (hsz.2 hc)]
      have hal := hal.resolve_left (by omega)
      have hf0 : U.alVec it = true := by simpa using hal 0
      obtain ⟨l, h1, h2, h3⟩ := loadN_ok (m := m) U.lanes it (fun j hj => hm _ (by omega) (by omega))
      unfold vload
      rw [if_pos hf0]
      simp only [bind_assoc]
      rw [M_bind_apply, h1]
      dsimp only
      have hfound : List.map (fun y => decide (y > 0#w)) (if v = false then List.map (fun x => ~~~ x) l else l) = l.map (hasVal v) := by
        rw [show (hasVal v : BitVec w → Bool) = fun x => decide ((if v = false then ~~~ x else x) > 0#w) from funext (hasVal_gt v)]
        cases v <;> simp [Function.comp_def]
      rw [hfound]
      by_cases ha : (l.map (hasVal v)).any id = true
      · rw [if_pos ha]
        have hidx : (l.map (hasVal v)).findIdx id < (l.map (hasVal v)).length := List.findIdx_lt_length_of_exists (by
          obtain ⟨b, hb, hb'⟩ := List.any_eq_true.1 ha
          exact ⟨b, hb, hb'⟩)
        generalize hi : (l.map (hasVal v)).findIdx id = i at hidx
        simp only [List.length_map] at hidx
        have hget : hasVal v l[i] = true := by
          have := List.findIdx_getElem (xs := l.map (hasVal v)) (p := id) (w := by simpa [hi] using hidx)
          simpa [hi] using this
        have hbefore : ∀ j : Nat, (hj : j < i) → hasVal v (l[j]'(by omega)) = false := by
          intro j hj
          have := List.not_of_lt_findIdx (xs := l.map (hasVal v)) (p := id) (i := j) (by omega)
          simpa using this
        have hmi : m (it + i) = some l[i] := by rw [h3 i (by omega)]; simp [hidx]
        have hl : load (it + (i : Int)) m = .ok (l[i], m) := by simp only [load, hmi]
        simp only [bind_assoc]
        rw [M_bind_apply, hl]
        dsimp only
        rw [findWords_skipN i it (by omega) (fun j hj => ⟨l[j], by rw [h3 j (by omega)]; simp, hbefore j hj⟩),
          findWords_found (by omega) hmi hget]
        simp [afterSearch]
      · rw [if_neg ha]
        rw [findWords_skipN U.lanes it (by omega) (fun j hj => ⟨l[j], by rw [h3 j hj]; simp, by
          by_contra hb
          apply ha
          rw [List.any_eq_true]
          exact ⟨hasVal v l[j], List.mem_map_of_mem (List.getElem_mem _), by simpa using hb⟩⟩)]
        exact hwyFindVec_eq v last m K fuel (it + U.lanes) (by omega) (by omega) (fun c h1 h2 => hm c (by omega) h2)
          (Or.inr (fun k => by
            have := hal (k + 1); push_cast at this
            rw [show it + ((k : Int) + 1) * U.lanes = it + U.lanes + k * U.lanes by ring] at this; exact this))
          (fun it' h1 h2 => hK it' (by omega) h2)
    · rw [if_neg (fun h => hc (hsz.1 h))]
      simp only [pure_bind, afterSearch]
      exact hK it (by omega) hle

theorem hwyFindWords_eq {U : Simd} (hU : U.Ok) (v : Bool) (last : BitIter w) (m : Mem w) (it : Int) (hle : it ≤ last.base)
    (hm : ∀ c, it ≤ c → c < last.base → ∃ x, m c = some x) : hwyFindWords U it last v m = findWords it last v m := by
  unfold hwyFindWords
  refine Eq.trans ?_ (hwyFindAlign_eq U v last m (fun it => hwyFindVec U v last.base ((last.base - it).toNat + 1) it >>=
    afterSearch (fun it => findWords it last v)) ((last.base - it).toNat + 1) it hle (by omega) hm ?_)
  · rfl
  · intro it' h1 h2 h3
    exact hwyFindVec_eq v last m _ _ it' h2 (by omega) (fun c h4 h5 => hm c (by omega) h5)
      (h3.imp id (fun h k => Simd.alVec_of_al64 hU h k)) (fun _ _ _ => rfl)

end BitLib

import Verif.Props.Vector2
/-
C35, C53: histories of operations on any number of `bit_vector`s.

A history is a list of calls `Op`. `Op.exec` runs the modelled code on the vectors of a program; `Op.apply` is the same call on plain lists.
`Op.Pre` is the precondition of the call (existing objects, positions in range). `Op.Lim` collects the limits of the library found in
C26-C34: it is part of the hypotheses, so the main theorem is `_partial`. For word types narrower than `int` the limits are only sizes.
-/
namespace BitLib
variable {w : Nat}

/-- The vectors `vs` of a program hold the lists `ls`, and no two of them share storage. -/
structure EnvOk (h : Heap w) (vs : List BV) (ls : List (List Bool)) : Prop where
  wf : h.WF
  len : vs.length = ls.length
  rep : ∀ (i : Nat) (v : BV) (l : List Bool), vs[i]? = some v → ls[i]? = some l → Rep h v l
  sep : ∀ (i j : Nat) (v o : BV), vs[i]? = some v → vs[j]? = some o → i ≠ j → Sep w v.vec o.vec

/-- A call. Numbers `i`, `j` name vectors; `d`, `a`, `b` are positions. -/
inductive Op (w : Nat) where
  | newEmpty
  | newCount (n : Nat)
  | newCountVal (n : Nat) (x : Bool)
  | newString (s : List Char)
  | newBoolRange (l : List Bool)
  | newBoolList (l : List Bool)
  | newWords (l : List (BitVec w))
  /-- from the bits `[a, b)` of vector `j` -/
  | newBits (j a b : Nat)
  | newCopy (j : Nat)
  | push (i : Nat) (x : Bool)
  | pop (i : Nat)
  | insert (i d : Nat) (x : Bool)
  | insertN (i d n : Nat) (x : Bool)
  /-- insert the bits `[a, b)` of vector `j` before position `d` of vector `i` -/
  | insertRange (i d j a b : Nat)
  | erase (i d : Nat)
  | eraseRange (i a b : Nat)
  | clear (i : Nat)
  | set (i k : Nat) (x : Bool)
  | copyAssign (i j : Nat)
  | moveAssign (i j : Nat)
  | reserve (i n : Nat)
  | shrinkToFit (i : Nat)
  /-- `resize` to at most the present size -/
  | shrink (i n : Nat)
  /-- destroy vector `i`; a default-constructed vector takes its place -/
  | destroy (i : Nat)

/-- Run `f` on vector `i`. -/
def onVec (vs : List BV) (i : Nat) (f : BV → V w BV) : V w (List BV) :=
  match vs[i]? with
  | some v => f v >>= fun v' => pure (vs.set i v')
  | none => ubV .badRange

/-- Run `f` on vectors `i` and `j`, replacing `i`. -/
def onVec2 (vs : List BV) (i j : Nat) (f : BV → BV → V w BV) : V w (List BV) :=
  match vs[i]?, vs[j]? with
  | some v, some o => f v o >>= fun v' => pure (vs.set i v')
  | _, _ => ubV .badRange

/-- Add the vector made by `f`. -/
def newVec (vs : List BV) (f : V w BV) : V w (List BV) := f >>= fun v => pure (vs ++ [v])

namespace Op

/-- The modelled code of a call. -/
def exec (S : ShiftSem w) (P : Policy) (vs : List BV) : Op w → V w (List BV)
  | newEmpty => newVec vs (pure BV.default)
  | newCount n => newVec vs (BV.ofCount P n)
  | newCountVal n x => newVec vs (BV.ofCountVal P n x)
  | newString s => newVec vs (BV.ofString S P s)
  | newBoolRange l => newVec vs (BV.ofBoolRange S P l)
  | newBoolList l => newVec vs (BV.ofBoolList S P l)
  | newWords l => newVec vs (BV.ofWords P l)
  | newBits j a b =>
    match vs[j]? with
    | some o => newVec vs (BV.ofBits S P (o.begin.add (a : Int)) (o.begin.add (b : Int)))
    | none => ubV .badRange
  | newCopy j =>
    match vs[j]? with
    | some o => newVec vs (BV.copyOf P o)
    | none => ubV .badRange
  | push i x => onVec vs i fun v => v.pushBack S P x
  | pop i => onVec vs i fun v => v.popBack
  | insert i d x => onVec vs i fun v => Prod.fst <$> v.insert S P (v.begin.add (d : Int)) x
  | insertN i d n x => onVec vs i fun v => Prod.fst <$> v.insertN S P (v.begin.add (d : Int)) n x
  | insertRange i d j a b => onVec2 vs i j fun v o =>
      Prod.fst <$> v.insertRange S P (v.begin.add (d : Int)) (o.begin.add (a : Int)) (o.begin.add (b : Int))
  | erase i d => onVec vs i fun v => Prod.fst <$> v.erase S (v.begin.add (d : Int))
  | eraseRange i a b => onVec vs i fun v => Prod.fst <$> v.eraseRange S P (v.begin.add (a : Int)) (v.begin.add (b : Int))
  | clear i => onVec vs i fun v => v.clear
  | set i k x => onVec vs i fun v => v.set S k x
  | copyAssign i j => onVec2 vs i j fun v o => v.copyAssign P o
  | moveAssign i j =>
    match vs[i]?, vs[j]? with
    | some v, some o => v.moveAssign o >>= fun r => pure ((vs.set i r.1).set j r.2)
    | _, _ => ubV .badRange
  | reserve i n => onVec vs i fun v => v.reserve P n
  | shrinkToFit i => onVec vs i fun v => v.shrinkToFit P
  | shrink i n => onVec vs i fun v => v.resize P n
  | destroy i => onVec vs i fun v => v.destroy >>= fun _ => pure BV.default

/-- The list at position `i`. -/
def at' (ls : List (List Bool)) (i : Nat) : List Bool := (ls[i]?).getD []

/-- The same call on plain lists. -/
def apply (ls : List (List Bool)) : Op w → List (List Bool)
  | newEmpty => ls ++ [[]]
  | newCount n => ls ++ [List.replicate n false]
  | newCountVal n x => ls ++ [List.replicate n x]
  | newString s => ls ++ [digitsOf s]
  | newBoolRange l => ls ++ [l]
  | newBoolList l => ls ++ [l]
  | newWords l => ls ++ [bitsOfWords l]
  | newBits j a b => ls ++ [((at' ls j).take b).drop a]
  | newCopy j => ls ++ [at' ls j]
  | push i x => ls.set i (at' ls i ++ [x])
  | pop i => ls.set i (at' ls i).dropLast
  | insert i d x => ls.set i ((at' ls i).take d ++ [x] ++ (at' ls i).drop d)
  | insertN i d n x => ls.set i ((at' ls i).take d ++ List.replicate n x ++ (at' ls i).drop d)
  | insertRange i d j a b => ls.set i ((at' ls i).take d ++ ((at' ls j).take b).drop a ++ (at' ls i).drop d)
  | erase i d => ls.set i ((at' ls i).take d ++ (at' ls i).drop (d + 1))
  | eraseRange i a b => ls.set i ((at' ls i).take a ++ (at' ls i).drop b)
  | clear i => ls.set i []
  | set i k x => ls.set i ((at' ls i).set k x)
  | copyAssign i j => ls.set i (at' ls j)
  | moveAssign i j => (ls.set i (at' ls j)).set j []
  | reserve _ _ => ls
  | shrinkToFit _ => ls
  | shrink i n => ls.set i ((at' ls i).take n)
  | destroy i => ls.set i []

/-- The precondition of a call. -/
def Pre (ls : List (List Bool)) : Op w → Prop
  | newBits j a b => j < ls.length ∧ a ≤ b ∧ b ≤ (at' ls j).length
  | newCopy j => j < ls.length
  | push i _ => i < ls.length
  | pop i => i < ls.length ∧ at' ls i ≠ []
  | insert i d _ => i < ls.length ∧ d ≤ (at' ls i).length
  | insertN i d _ _ => i < ls.length ∧ d ≤ (at' ls i).length
  | insertRange i d j a b => i < ls.length ∧ d ≤ (at' ls i).length ∧ j < ls.length ∧ i ≠ j ∧ a ≤ b ∧ b ≤ (at' ls j).length
  | erase i d => i < ls.length ∧ d < (at' ls i).length
  | eraseRange i a b => i < ls.length ∧ a ≤ b ∧ b ≤ (at' ls i).length
  | clear i => i < ls.length
  | set i k _ => i < ls.length ∧ k < (at' ls i).length
  | copyAssign i j => i < ls.length ∧ j < ls.length
  | moveAssign i j => i < ls.length ∧ j < ls.length ∧ i ≠ j
  | reserve i _ => i < ls.length
  | shrinkToFit i => i < ls.length
  | shrink i n => i < ls.length ∧ n ≤ (at' ls i).length
  | destroy i => i < ls.length
  | _ => True

/-- The limits on sizes. -/
def SizeLim (ls : List (List Bool)) : Op w → Prop
  | newCount n => n < 2 ^ 32
  | newCountVal n _ => n < 2 ^ 32
  | insertN i _ n _ => (at' ls i).length + n ≤ 2 ^ 24
  | insertRange i _ _ a b => (at' ls i).length + (b - a) ≤ 2 ^ 24
  | eraseRange i _ _ => (at' ls i).length < 2 ^ 32
  | shrink _ n => n < 2 ^ 32
  | _ => True

/-- The call does not shift exactly one aligned word (the over-shift of C26-C30). -/
def NoFullWord (w : Nat) (ls : List (List Bool)) : Op w → Prop
  | insert i d _ => ¬ (d % w = 0 ∧ (at' ls i).length + 1 - d = w ∧ 1 < w)
  | insertN i d n _ => ¬ (d % w = 0 ∧ (at' ls i).length + n - d = w ∧ n < w)
  | insertRange i d _ a b => ¬ (d % w = 0 ∧ (at' ls i).length + (b - a) - d = w ∧ b - a < w)
  | erase i d => ¬ (d % w = 0 ∧ (at' ls i).length - d = w ∧ 1 < w)
  | eraseRange i a b => ¬ (a % w = 0 ∧ (at' ls i).length - a = w ∧ a < b ∧ b - a < w)
  | _ => True

/-- All limits of the library for a call. -/
def Lim (S : ShiftSem w) (ls : List (List Bool)) (op : Op w) : Prop := op.SizeLim ls ∧ (op.NoFullWord w ls ∨ S.FullShiftOk)

end Op

/-! ### Environments -/

theorem Sep.symm {v o : Vec} (h : Sep w v o) : Sep w o v := by
  unfold Sep at *
  rcases h with h | h | h | h
  · exact .inr (.inl h)
  · exact .inl h
  · exact .inr (.inr (.inr h))
  · exact .inr (.inr (.inl h))

theorem EnvOk.get {h : Heap w} {vs : List BV} {ls : List (List Bool)} (e : EnvOk h vs ls) {i : Nat} (hi : i < ls.length) :
    ∃ v, vs[i]? = some v ∧ ls[i]? = some (Op.at' ls i) ∧ Rep h v (Op.at' ls i) := by
  have hl := e.len
  have h1 : vs[i]? = some (vs[i]'(by omega)) := List.getElem?_eq_getElem (by omega)
  have h2 : ls[i]? = some (Op.at' ls i) := by unfold Op.at'; rw [List.getElem?_eq_getElem hi]; rfl
  exact ⟨_, h1, h2, e.rep i _ _ h1 h2⟩

/-- An operation on vector `i`. -/
theorem EnvOk.update {h h' : Heap w} {vs : List BV} {ls : List (List Bool)} (e : EnvOk h vs ls) {i : Nat} {v v' : BV} {l' : List Bool} {u : Vec}
    (hv : vs[i]? = some v) (s : VStep h v.vec h' u) (hu : v'.vec = u ∨ v'.vec.cap = 0) (r : Rep h' v' l') :
    EnvOk h' (vs.set i v') (ls.set i l') := by
  have hi : i < vs.length := by
    by_contra hc
    rw [List.getElem?_eq_none (by omega)] at hv; cases hv
  have hl := e.len
  have old : ∀ (k : Nat) (o : BV), k ≠ i → vs[k]? = some o → Sep w v'.vec o.vec ∧ ∀ l, ls[k]? = some l → Rep h' o l := by
    intro k o hk ho
    have hs := e.sep i k v o hv ho (Ne.symm hk)
    refine ⟨?_, fun l hl => ((e.rep k o l ho hl).frame s hs).1⟩
    have hkl : k < ls.length := by
      have : k < vs.length := by
        by_contra hc
        rw [List.getElem?_eq_none (by omega)] at ho; cases ho
      omega
    obtain ⟨o', h1, h2, h3⟩ := e.get hkl
    rw [ho] at h1
    cases h1
    rcases hu with hu | hu
    · rw [hu]; exact (h3.frame s hs).2
    · exact .inl hu
  refine ⟨s.wf, by simp [hl], ?_, ?_⟩
  · intro k o l ho hlk
    rw [List.getElem?_set] at ho hlk
    by_cases hk : i = k
    · subst hk
      rw [if_pos rfl, if_pos (by omega)] at ho hlk
      cases ho; cases hlk
      exact r
    · rw [if_neg hk] at ho hlk
      exact (old k o (Ne.symm hk) ho).2 l hlk
  · intro a b x y hx hy hab
    rw [List.getElem?_set] at hx hy
    by_cases ha : i = a
    · subst ha
      rw [if_pos rfl, if_pos hi] at hx
      rw [if_neg hab] at hy
      cases hx
      exact (old b y (Ne.symm hab) hy).1
    · rw [if_neg ha] at hx
      by_cases hb : i = b
      · subst hb
        rw [if_pos rfl, if_pos hi] at hy
        cases hy
        exact (old a x (Ne.symm ha) hx).1.symm
      · rw [if_neg hb] at hy
        exact e.sep a b x y hx hy hab

/-- A new vector. -/
theorem EnvOk.push {h h' : Heap w} {vs : List BV} {ls : List (List Bool)} (e : EnvOk h vs ls) {v' : BV} {l' : List Bool}
    (s : VStep h Vec.empty h' v'.vec) (r : Rep h' v' l') : EnvOk h' (vs ++ [v']) (ls ++ [l']) := by
  have hl := e.len
  have old : ∀ (k : Nat) (o : BV), vs[k]? = some o → Sep w v'.vec o.vec ∧ ∀ l, ls[k]? = some l → Rep h' o l := by
    intro k o ho
    have hs : Sep w Vec.empty o.vec := .inl rfl
    refine ⟨?_, fun l hl => ((e.rep k o l ho hl).frame s hs).1⟩
    have hkl : k < ls.length := by
      have : k < vs.length := by
        by_contra hc
        rw [List.getElem?_eq_none (by omega)] at ho; cases ho
      omega
    obtain ⟨o', h1, h2, h3⟩ := e.get hkl
    rw [ho] at h1
    cases h1
    exact (h3.frame s hs).2
  have split : ∀ {α : Type} (l : List α) (x y : α) (k : Nat), (l ++ [x])[k]? = some y → (k < l.length ∧ l[k]? = some y) ∨ (k = l.length ∧ y = x) := by
    intro α l x y k hk
    by_cases hc : k < l.length
    · rw [List.getElem?_append_left hc] at hk
      exact .inl ⟨hc, hk⟩
    · rw [List.getElem?_append_right (by omega)] at hk
      by_cases h0 : k = l.length
      · subst h0
        rw [Nat.sub_self] at hk
        cases hk
        exact .inr ⟨rfl, rfl⟩
      · rw [List.getElem?_eq_none (by simp; omega)] at hk
        cases hk
  refine ⟨s.wf, by simp [hl], ?_, ?_⟩
  · intro k o l ho hlk
    rcases split _ _ _ _ ho with ⟨h1, h2⟩ | ⟨h1, h2⟩
    · rcases split _ _ _ _ hlk with ⟨h3, h4⟩ | ⟨h3, h4⟩
      · exact (old k o h2).2 l h4
      · omega
    · rcases split _ _ _ _ hlk with ⟨h3, h4⟩ | ⟨h3, h4⟩
      · omega
      · rw [h2, h4]; exact r
  · intro a b x y hx hy hab
    rcases split _ _ _ _ hx with ⟨h1, h2⟩ | ⟨h1, h2⟩
    · rcases split _ _ _ _ hy with ⟨h3, h4⟩ | ⟨h3, h4⟩
      · exact e.sep a b x y h2 h4 hab
      · rw [h4]; exact (old a x h2).1.symm
    · rcases split _ _ _ _ hy with ⟨h3, h4⟩ | ⟨h3, h4⟩
      · rw [h2]; exact (old b y h4).1
      · omega

theorem EnvOk.nil {h : Heap w} (hwf : h.WF) : EnvOk h [] [] := ⟨hwf, rfl, by simp, by simp⟩

/-! ### Single calls -/

theorem wpV_onVec {h : Heap w} {vs : List BV} {ls : List (List Bool)} (e : EnvOk h vs ls) {i : Nat} (hi : i < ls.length)
    {f : BV → V w BV} {l' : List Bool}
    (hf : ∀ v, Rep h v (Op.at' ls i) → wpV (f v) h fun v' h' => (∃ u, VStep h v.vec h' u ∧ (v'.vec = u ∨ v'.vec.cap = 0)) ∧ Rep h' v' l') :
    wpV (onVec vs i f) h fun vs' h' => EnvOk h' vs' (ls.set i l') := by
  obtain ⟨v, h1, h2, r⟩ := e.get hi
  unfold onVec
  rw [h1]
  show wpV (f v >>= _) h _
  rw [wpV_bind]
  refine wpV_mono (hf v r) ?_
  rintro v' h' ⟨⟨u, s, hu⟩, r'⟩
  exact wpV_pure (e.update h1 s hu r')

theorem wpV_newVec {h : Heap w} {vs : List BV} {ls : List (List Bool)} (e : EnvOk h vs ls) {f : V w BV} {l' : List Bool}
    (hf : wpV f h fun v' h' => VStep h Vec.empty h' v'.vec ∧ Rep h' v' l') :
    wpV (newVec vs f) h fun vs' h' => EnvOk h' vs' (ls ++ [l']) := by
  unfold newVec
  rw [wpV_bind]
  refine wpV_mono hf ?_
  rintro v' h' ⟨s, r⟩
  exact wpV_pure (e.push s r)

theorem wpV_map {α β : Type} {x : V w α} {g : α → β} {h : Heap w} {Q : β → Heap w → Prop} (hx : wpV x h fun a h' => Q (g a) h') :
    wpV (g <$> x) h Q := by
  obtain ⟨a, h', e, q⟩ := hx
  refine ⟨g a, h', ?_, q⟩
  show (Except.bind (x h) fun p => _) = _
  rw [e]; rfl

theorem Rep.holdsSeq (hw : 0 < w) {h : Heap w} {v : BV} {l : List Bool} (r : Rep h v l) {a b : Nat} (hab : a ≤ b) (hb : b ≤ l.length) :
    HoldsSeq h ((v.begin : BitIter w).add (a : Int)) ((v.begin : BitIter w).add (b : Int)) ((l.take b).drop a) := by
  obtain ⟨p1, p2⟩ := IsPos.begin_add hw v a
  obtain ⟨q1, q2⟩ := IsPos.begin_add hw v b
  refine ⟨p1, q1, by simp; omega, ?_⟩
  intro i hi
  simp at hi
  rw [p2, show v.vec.ptr * (w : Int) + (a : Int) + (i : Int) = v.vec.ptr * (w : Int) + ((a + i : Nat) : Int) by omega, r.bits (a + i) (by omega)]
  simp

theorem Rep.outside (hw : 0 < w) {h : Heap w} {v o : BV} {l : List Bool} (r : Rep h o l) (hs : Sep w v.vec o.vec) {a b : Nat}
    (hb : b ≤ l.length) : Outside v.vec ((o.begin : BitIter w).add (a : Int)) ((o.begin : BitIter w).add (b : Int)) := by
  obtain ⟨p1, p2⟩ := IsPos.begin_add hw o a
  obtain ⟨q1, q2⟩ := IsPos.begin_add hw o b
  have hf := r.fit
  have hl := r.len
  have hc := nat_mul_cast_le (w := w) r.ok.cap
  have hfi : (o.length : Int) ≤ (o.vec.size : Int) * (w : Int) := by exact_mod_cast hf
  unfold Outside
  rcases hs with h | h | h | h
  · exact .inr (.inl h)
  · left
    rw [h] at hc
    simp only [Int.natCast_zero, Int.zero_mul] at hc
    omega
  · right; right; right; omega
  · right; right; left; omega

theorem set_at' (ls : List (List Bool)) (i : Nat) : ls.set i (Op.at' ls i) = ls := by
  refine List.ext_getElem? fun k => ?_
  rw [List.getElem?_set]
  split_ifs with h1 h2
  · subst h1
    unfold Op.at'
    rw [List.getElem?_eq_getElem h2]; rfl
  · rw [List.getElem?_eq_none (by omega)]
  · rfl

/-- C35, one call: a valid call within the limits has no undefined behaviour and does to the vectors what it does to plain lists. -/
theorem C35_step_partial (hw : 0 < w) (S : ShiftSem w) (P : Policy) (h : Heap w) (vs : List BV) (ls : List (List Bool)) (op : Op w)
    (e : EnvOk h vs ls) (hpre : op.Pre ls) (hlim : op.Lim S ls) :
    ∃ vs' h', op.exec S P vs h = .ok (vs', h') ∧ EnvOk h' vs' (op.apply ls) := by
  obtain ⟨hsz, hfw⟩ := hlim
  cases op with
  | newEmpty => exact wpV_newVec e (wpV_pure (wpV_default e.wf))
  | newCount n => exact wpV_newVec e (C33_count hw P h e.wf n hsz)
  | newCountVal n x => exact wpV_newVec e (C33_count_value hw P h e.wf n hsz x)
  | newString s => exact wpV_newVec e (C33_string hw S P h e.wf s)
  | newBoolRange l => exact wpV_newVec e (C33_bool_range hw S P h e.wf l)
  | newBoolList l => exact wpV_newVec e (C33_bool_list hw S P h e.wf l)
  | newWords l => exact wpV_newVec e (C33_words hw P h e.wf l)
  | newBits j a b =>
    obtain ⟨hj, hab, hb⟩ := hpre
    obtain ⟨o, h1, h2, r⟩ := e.get hj
    unfold Op.exec
    dsimp only
    rw [h1]
    exact wpV_newVec e (C33_bits hw S P h e.wf _ _ _ (r.holdsSeq hw hab hb))
  | newCopy j =>
    obtain ⟨o, h1, h2, r⟩ := e.get hpre
    unfold Op.exec
    dsimp only
    rw [h1]
    exact wpV_newVec e (wpV_copyOf hw e.wf r fun _ _ s r => ⟨s, r⟩)
  | push i x => exact wpV_onVec e hpre fun v r => wpV_push S hw e.wf r fun _ _ s r => ⟨⟨_, s, .inl rfl⟩, r⟩
  | pop i => exact wpV_onVec e hpre.1 fun v r => wpV_pop hw e.wf r hpre.2 fun _ _ s r => ⟨⟨_, s, .inl rfl⟩, r⟩
  | insert i d x =>
    exact wpV_onVec e hpre.1 fun v r => wpV_map (wpV_insert S hw e.wf r (IsPos.begin_add hw v d) hpre.2 hfw
      fun _ _ _ s r _ => ⟨⟨_, s, .inl rfl⟩, r⟩)
  | insertN i d n x =>
    exact wpV_onVec e hpre.1 fun v r => wpV_map (wpV_insertN S hw e.wf r (IsPos.begin_add hw v d) hpre.2 (floatOk_small hw hsz) hfw
      fun _ _ _ s r _ => ⟨⟨_, s, .inl rfl⟩, r⟩)
  | insertRange i d j a b =>
    obtain ⟨hi, hd, hj, hij, hab, hb⟩ := hpre
    obtain ⟨v, h1, h2, r⟩ := e.get hi
    obtain ⟨o, h3, h4, ro⟩ := e.get hj
    have hlen : (((Op.at' ls j).take b).drop a).length = b - a := by simp; omega
    unfold Op.exec
    dsimp only
    unfold onVec2
    rw [h1, h3]
    show wpV (_ >>= _) h _
    rw [wpV_bind]
    refine wpV_map (wpV_insertRange S hw e.wf r (IsPos.begin_add hw v d) hd (ro.holdsSeq hw hab hb)
      (ro.outside hw (e.sep i j v o h1 h3 hij) hb) (floatOk_small hw (by rw [hlen]; exact hsz)) (by rw [hlen]; exact hfw) ?_)
    intro v' it h' s r' _
    exact wpV_pure (e.update h1 s (.inl rfl) r')
  | erase i d =>
    exact wpV_onVec e hpre.1 fun v r => wpV_map (wpV_erase S hw e.wf r (IsPos.begin_add hw v d) hpre.2 hfw
      fun _ _ _ s r _ => ⟨⟨_, s, .inl rfl⟩, r⟩)
  | eraseRange i a b =>
    exact wpV_onVec e hpre.1 fun v r => wpV_map (wpV_eraseRange S hw e.wf r (IsPos.begin_add hw v a) (IsPos.begin_add hw v b) hpre.2.1
      hpre.2.2 (.inr (Nat.lt_of_le_of_lt (Nat.sub_le _ _) hsz)) hfw fun _ _ _ s r _ => ⟨⟨_, s, .inl rfl⟩, r⟩)
  | clear i => exact wpV_onVec e hpre fun v r => wpV_clear hw e.wf r fun _ _ s r _ => ⟨⟨_, s, .inl rfl⟩, r⟩
  | set i k x => exact wpV_onVec e hpre.1 fun v r => wpV_set S hw e.wf r hpre.2 fun _ s r => ⟨⟨_, s, .inl rfl⟩, r⟩
  | copyAssign i j =>
    obtain ⟨hi, hj⟩ := hpre
    obtain ⟨v, h1, h2, r⟩ := e.get hi
    obtain ⟨o, h3, h4, ro⟩ := e.get hj
    unfold Op.exec
    dsimp only
    unfold onVec2
    rw [h1, h3]
    show wpV (_ >>= _) h _
    rw [wpV_bind]
    refine wpV_copyAssign hw e.wf r ro ?_
    intro v' h' s r'
    exact wpV_pure (e.update h1 s (.inl rfl) r')
  | moveAssign i j =>
    obtain ⟨hi, hj, hij⟩ := hpre
    obtain ⟨v, h1, h2, r⟩ := e.get hi
    obtain ⟨o, h3, h4, ro⟩ := e.get hj
    unfold Op.exec
    dsimp only
    rw [h1, h3]
    show wpV (_ >>= _) h _
    rw [wpV_bind]
    refine wpV_moveAssign hw e.wf ro (e.sep i j v o h1 h3 hij) ?_
    intro h' s ro' rd
    refine wpV_pure ?_
    dsimp only
    -- first the target becomes empty, then the source, then the target takes the storage
    have e1 := e.update (v' := BV.default) (l' := []) h1 s (.inr rfl) rd
    have hj2 : (vs.set i BV.default)[j]? = some o := by rw [List.getElem?_set, if_neg hij]; exact h3
    have e2 := e1.update (v' := BV.default) (l' := []) hj2 (VStep.refl e1.wf _) (.inr rfl) rd
    have hl := e.len
    have ei : ∀ k : Nat, k ≠ i → k ≠ j → ((vs.set i o).set j BV.default)[k]? = vs[k]? := by
      intro k h5 h6
      rw [List.getElem?_set, if_neg (Ne.symm h6), List.getElem?_set, if_neg (Ne.symm h5)]
    have ej : ((vs.set i o).set j BV.default)[j]? = some BV.default := by
      rw [List.getElem?_set, if_pos rfl, if_pos (by simp; omega)]
    have eii : ((vs.set i o).set j BV.default)[i]? = some o := by
      rw [List.getElem?_set, if_neg (Ne.symm hij), List.getElem?_set, if_pos rfl, if_pos (by omega)]
    have lk : ∀ k : Nat, k ≠ i → k ≠ j → ((ls.set i (Op.at' ls j)).set j [])[k]? = ls[k]? := by
      intro k h5 h6
      rw [List.getElem?_set, if_neg (Ne.symm h6), List.getElem?_set, if_neg (Ne.symm h5)]
    have lj : ((ls.set i (Op.at' ls j)).set j [])[j]? = some [] := by
      rw [List.getElem?_set, if_pos rfl, if_pos (by simp; omega)]
    have li : ((ls.set i (Op.at' ls j)).set j [])[i]? = some (Op.at' ls j) := by
      rw [List.getElem?_set, if_neg (Ne.symm hij), List.getElem?_set, if_pos rfl, if_pos (by omega)]
    have hold : ∀ k : Nat, k ≠ i → k ≠ j → ((vs.set i BV.default).set j BV.default)[k]? = vs[k]? := by
      intro k h5 h6
      rw [List.getElem?_set, if_neg (Ne.symm h6), List.getElem?_set, if_neg (Ne.symm h5)]
    have lold : ∀ k : Nat, k ≠ i → k ≠ j → ((ls.set i []).set j [])[k]? = ls[k]? := by
      intro k h5 h6
      rw [List.getElem?_set, if_neg (Ne.symm h6), List.getElem?_set, if_neg (Ne.symm h5)]
    refine ⟨s.wf, by simp [Op.apply, hl], ?_, ?_⟩
    · intro k x l hx hlk
      change ((ls.set i (Op.at' ls j)).set j [])[k]? = some l at hlk
      by_cases hki : k = i
      · subst hki
        rw [eii] at hx; rw [li] at hlk
        cases hx; cases hlk
        exact ro'
      · by_cases hkj : k = j
        · subst hkj
          rw [ej] at hx; rw [lj] at hlk
          cases hx; cases hlk
          exact rd
        · rw [ei k hki hkj] at hx
          rw [lk k hki hkj] at hlk
          exact e2.rep k x l (by rw [hold k hki hkj]; exact hx) (by rw [lold k hki hkj]; exact hlk)
    · intro a b x y hx hy hab
      by_cases haj : a = j
      · subst haj
        rw [ej] at hx; cases hx
        exact .inl rfl
      · by_cases hbj : b = j
        · subst hbj
          rw [ej] at hy; cases hy
          exact .inr (.inl rfl)
        · by_cases hai : a = i
          · subst hai
            rw [eii] at hx; cases hx
            rw [ei b (Ne.symm hab) hbj] at hy
            exact e.sep j b _ _ h3 hy (Ne.symm hbj)
          · rw [ei a hai haj] at hx
            by_cases hbi : b = i
            · subst hbi
              rw [eii] at hy; cases hy
              exact e.sep a j _ _ hx h3 haj
            · rw [ei b hbi hbj] at hy
              exact e.sep a b _ _ hx hy hab
  | reserve i n =>
    have := wpV_onVec e hpre (f := fun v => v.reserve P n) (l' := Op.at' ls i)
      fun v r => wpV_reserve hw e.wf r fun _ _ s r _ _ => ⟨⟨_, s, .inl rfl⟩, r⟩
    rw [set_at'] at this
    exact this
  | shrinkToFit i =>
    have := wpV_onVec e hpre (f := fun v => v.shrinkToFit P) (l' := Op.at' ls i)
      fun v r => wpV_shrinkToFit hw e.wf r fun _ _ s r _ => ⟨⟨_, s, .inl rfl⟩, r⟩
    rw [set_at'] at this
    exact this
  | shrink i n =>
    refine wpV_onVec e hpre.1 fun v r => ?_
    obtain ⟨v', h', l', e1, s, r1, hl1, ht⟩ := C31_resize_keeps hw P h v _ n e.wf r hsz
    refine ⟨v', h', e1, ⟨_, s, .inl rfl⟩, ?_⟩
    have := hpre.2
    rw [← ht, List.take_of_length_le (by omega)]
    exact r1
  | destroy i =>
    refine wpV_onVec e hpre fun v r => ?_
    rw [wpV_bind]
    have s := release_ok hw (v := v.vec) e.wf
    exact ⟨_, _, rfl, wpV_pure ⟨⟨_, s, .inr rfl⟩, (wpV_default s.wf).2⟩⟩

/-! ### Histories -/

/-- Every call of the history satisfies `R` in the state (of plain lists) in which it is made. -/
def Along (R : List (List Bool) → Op w → Prop) : List (Op w) → List (List Bool) → Prop
  | [], _ => True
  | op :: ops, ls => R ls op ∧ Along R ops (op.apply ls)

/-- Running a history. -/
def runHist (S : ShiftSem w) (P : Policy) (vs : List BV) (ops : List (Op w)) : V w (List BV) := ops.foldlM (fun vs op => op.exec S P vs) vs

/-- A history on plain lists. -/
def specHist (ls : List (List Bool)) (ops : List (Op w)) : List (List Bool) := ops.foldl (fun ls op => op.apply ls) ls

theorem Along.mono {R R' : List (List Bool) → Op w → Prop} (h : ∀ ls op, R ls op → R' ls op) {ops : List (Op w)} {ls : List (List Bool)}
    (a : Along R ops ls) : Along R' ops ls := by
  induction ops generalizing ls with
  | nil => trivial
  | cons op ops ih => exact ⟨h _ _ a.1, ih a.2⟩

/-- C35: after any history of valid calls within the limits, on any number of vectors, no call has had undefined behaviour and
the vectors hold exactly what plain lists hold after the same calls. -/
theorem C35_history_partial (hw : 0 < w) (S : ShiftSem w) (P : Policy) (h : Heap w) (vs : List BV) (ls : List (List Bool)) (ops : List (Op w))
    (e : EnvOk h vs ls) (hv : Along (fun ls op => op.Pre ls ∧ op.Lim S ls) ops ls) :
    ∃ vs' h', runHist S P vs ops h = .ok (vs', h') ∧ EnvOk h' vs' (specHist ls ops) := by
  induction ops generalizing h vs ls with
  | nil => exact ⟨vs, h, rfl, e⟩
  | cons op ops ih =>
    obtain ⟨⟨h1, h2⟩, h3⟩ := hv
    obtain ⟨vs1, h1', e1, ok1⟩ := C35_step_partial hw S P h vs ls op e h1 h2
    obtain ⟨vs2, h2', e2, ok2⟩ := ih h1' vs1 _ ok1 h3
    refine ⟨vs2, h2', ?_, ok2⟩
    unfold runHist
    rw [List.foldlM_cons]
    show (Except.bind (op.exec S P vs h) fun p => _) = _
    rw [e1]
    exact e2

/-- C35 for word types narrower than `int`: only sizes are limited (no bulk insertion beyond `2^24` bits). -/
theorem C35_history_promoted_partial (hw : 0 < w) (S : ShiftSem w) (hS : S.FullShiftOk) (P : Policy) (h : Heap w) (hwf : h.WF) (ops : List (Op w))
    (hv : Along (fun ls op => op.Pre ls ∧ op.SizeLim ls) ops []) :
    ∃ vs' h', runHist S P [] ops h = .ok (vs', h') ∧ EnvOk h' vs' (specHist [] ops) :=
  C35_history_partial hw S P h [] [] ops (EnvOk.nil hwf) (hv.mono fun _ _ hh => ⟨hh.1, hh.2, .inr hS⟩)

/-- C35, what can be observed after a history: `size()` and `operator[]` of every vector. -/
theorem C35_observe (hw : 0 < w) (S : ShiftSem w) (h : Heap w) (vs : List BV) (ls : List (List Bool)) (e : EnvOk h vs ls) (i : Nat) (hi : i < ls.length)
    (hi' : i < vs.length) :
    vs[i].size = ls[i].length ∧ (∀ (k : Nat) (hk : k < ls[i].length), vs[i].get S k h = .ok (ls[i][k], h)) := by
  have r := e.rep i _ _ (List.getElem?_eq_getElem hi') (List.getElem?_eq_getElem hi)
  have := C36_contents hw S h _ _ r
  exact ⟨this.1, this.2.2.1⟩

/-- C35 fails without the limits: for every word type that is not promoted (32 and 64 bits) a valid history of two calls is undefined:
construction of `w - 1` bits and an insertion at the front. -/
theorem C35_refuted (hw : 1 < w) (hw' : w ≤ 2 ^ 32) (P : Policy) (h : Heap w) (hwf : h.WF) (x : Bool) :
    Along (fun ls op => op.Pre ls ∧ op.SizeLim ls) ([Op.newCount (w - 1), Op.insert 0 0 x] : List (Op w)) [] ∧
    runHist (Unpromoted w) P [] [Op.newCount (w - 1), Op.insert 0 0 x] h = .error (.ub .overshift) := by
  have hn : w - 1 < 2 ^ 32 := by omega
  refine ⟨⟨⟨trivial, hn⟩, ⟨⟨Nat.zero_lt_one, Nat.zero_le _⟩, trivial⟩, trivial⟩, ?_⟩
  unfold runHist
  rw [List.foldlM_cons]
  refine failsV_bind ?_
  unfold Op.exec newVec
  dsimp only
  rw [wpV_bind]
  refine wpV_ofCount (by omega) hwf hn fun v h' s r => wpV_pure ?_
  rw [List.foldlM_cons]
  refine failsV_bind_left ?_
  show failsV (_ >>= _) h' _
  refine failsV_bind_left ?_
  have := failsV_insert (P := P) (b := x) (by omega) s.wf r (IsPos.begin_add (by omega) v 0) (Nat.zero_le _) (Nat.zero_mod _)
    (by simp; omega) hw
  show (Except.bind (v.insert (Unpromoted w) P _ x h') fun p => _) = _
  rw [show v.insert (Unpromoted w) P _ x h' = _ from this]
  rfl

/-! ### C53: copies and moves -/

/-- C53: a copy has equal contents and its own storage; the original is unchanged. -/
theorem C53_copy (hw : 0 < w) (P : Policy) (h : Heap w) (o : BV) (l : List Bool) (hwf : h.WF) (hr : Rep h o l) :
    ∃ v h', BV.copyOf P o h = .ok (v, h') ∧ h'.WF ∧ Rep h' v l ∧ Rep h' o l ∧ Sep w v.vec o.vec := by
  refine wpV_copyOf hw hwf hr fun v h' s r => ?_
  have := hr.frame s (.inl rfl)
  exact ⟨s.wf, r, this.1, this.2⟩

/-- C53: copy assignment gives equal contents, and the two vectors stay separate. -/
theorem C53_copy_assign (hw : 0 < w) (P : Policy) (h : Heap w) (v o : BV) (l l' : List Bool) (hwf : h.WF) (hv : Rep h v l') (hr : Rep h o l)
    (hs : Sep w v.vec o.vec) :
    ∃ v' h', BV.copyAssign P v o h = .ok (v', h') ∧ h'.WF ∧ Rep h' v' l ∧ Rep h' o l ∧ Sep w v'.vec o.vec := by
  refine wpV_copyAssign hw hwf hv hr fun v' h' s r => ?_
  have := hr.frame s hs
  exact ⟨s.wf, r, this.1, this.2⟩

/-- C53: copy assignment to itself keeps the contents. -/
theorem C53_copy_assign_self (hw : 0 < w) (P : Policy) (h : Heap w) (v : BV) (l : List Bool) (hwf : h.WF) (hv : Rep h v l) :
    ∃ v' h', BV.copyAssign P v v h = .ok (v', h') ∧ VStep h v.vec h' v'.vec ∧ Rep h' v' l :=
  wpV_copyAssign hw hwf hv hv fun _ _ s r => ⟨s, r⟩

/-- C53: move assignment transfers the contents and leaves the source empty, usable and separate. -/
theorem C53_move_assign (hw : 0 < w) (h : Heap w) (v o : BV) (l : List Bool) (hwf : h.WF) (hr : Rep h o l) (hs : Sep w v.vec o.vec) :
    ∃ v' o' h', BV.moveAssign v o h = .ok ((v', o'), h') ∧ h'.WF ∧ Rep h' v' l ∧ Rep h' o' [] ∧ Sep w v'.vec o'.vec := by
  obtain ⟨⟨v', o'⟩, h', e, q⟩ := wpV_moveAssign hw hwf hr hs
    (Q := fun r h' => h'.WF ∧ Rep h' r.1 l ∧ Rep h' r.2 [] ∧ Sep w r.1.vec r.2.vec) fun h' s r rd => ⟨s.wf, r, rd, .inr (.inl rfl)⟩
  exact ⟨v', o', h', e, q⟩

/-- C53: an operation on one vector never changes another: if `v` became `v'` (any operation of this file), a vector `o` with separate
storage keeps its contents and stays separate. -/
theorem C53_independent (h h' : Heap w) (v v' : Vec) (o : BV) (l : List Bool) (s : VStep h v h' v') (hr : Rep h o l) (hs : Sep w v o.vec) :
    Rep h' o l ∧ Sep w v' o.vec := hr.frame s hs

/-- C53, later histories: whatever (valid) calls follow, a vector that is not named by them as a target keeps its contents. -/
def Op.Untouched (k : Nat) : Op w → Prop
  | .push i _ | .pop i | .insert i _ _ | .insertN i _ _ _ | .insertRange i _ _ _ _ | .erase i _ | .eraseRange i _ _ | .clear i | .set i _ _
  | .copyAssign i _ | .reserve i _ | .shrinkToFit i | .shrink i _ | .destroy i => i ≠ k
  | .moveAssign i j => i ≠ k ∧ j ≠ k
  | _ => True

theorem C53_history_untouched (ls : List (List Bool)) (ops : List (Op w)) (k : Nat) (hk : k < ls.length)
    (hu : ∀ op ∈ ops, op.Untouched k) : (specHist ls ops)[k]? = ls[k]? := by
  induction ops generalizing ls with
  | nil => rfl
  | cons op ops ih =>
    have h1 : (op.apply ls)[k]? = ls[k]? ∧ k < (op.apply ls).length := by
      have := hu op (by simp)
      cases op <;> simp only [Op.Untouched] at this <;> simp only [Op.apply]
      case moveAssign i j => exact ⟨by rw [List.getElem?_set, if_neg this.2, List.getElem?_set, if_neg this.1], by simp; omega⟩
      all_goals first
        | exact ⟨List.getElem?_append_left hk, by simp; omega⟩
        | exact ⟨by rw [List.getElem?_set, if_neg this], by simp; omega⟩
        | exact ⟨rfl, hk⟩
        | exact ⟨trivial, hk⟩
    show (specHist (op.apply ls) ops)[k]? = _
    rw [ih _ h1.2 (fun o ho => hu o (by simp [ho])), h1.1]

/-- C53: after copying a vector, any valid history on the copy leaves the original alone, and the other way round. -/
theorem C53_copy_independent_partial (hw : 0 < w) (S : ShiftSem w) (P : Policy) (h : Heap w) (vs : List BV) (ls : List (List Bool))
    (ops : List (Op w)) (k : Nat) (hk : k < ls.length) (e : EnvOk h vs ls)
    (hv : Along (fun ls op => op.Pre ls ∧ op.Lim S ls) ops ls) (hu : ∀ op ∈ ops, op.Untouched k) :
    ∃ vs' h' v, runHist S P vs ops h = .ok (vs', h') ∧ vs'[k]? = some v ∧ Rep h' v ls[k] := by
  obtain ⟨vs', h', e1, ok⟩ := C35_history_partial hw S P h vs ls ops e hv
  have h1 := C53_history_untouched ls ops k hk hu
  rw [List.getElem?_eq_getElem hk] at h1
  have h2 : k < (specHist ls ops).length := by
    by_contra hc
    rw [List.getElem?_eq_none (by omega)] at h1; cases h1
  have h3 : k < vs'.length := by rw [ok.len]; exact h2
  exact ⟨vs', h', vs'[k], e1, List.getElem?_eq_getElem h3, ok.rep k _ _ (List.getElem?_eq_getElem h3) h1⟩

/-! ### Examples -/

/-- A history: two vectors, insertion, a copy, a move. -/
def exOps : List (Op 8) :=
  [.newString "1011".toList, .newCount 20, .insert 0 2 false, .insertRange 1 5 0 1 4, .newCopy 1, .eraseRange 2 3 9, .moveAssign 0 2, .push 2 true]

example : Along (fun ls op => op.Pre ls ∧ op.SizeLim ls) exOps [] := by
  unfold exOps Along Along Along Along Along Along Along Along Along
  refine ⟨⟨trivial, trivial⟩, ⟨trivial, by show 20 < 2 ^ 32; decide⟩, ⟨⟨by decide, by decide⟩, trivial⟩,
    ⟨⟨by decide, by decide, by decide, by decide, by decide, by decide⟩, by show _ ≤ _; decide⟩, ⟨by show _ < _; decide, trivial⟩,
    ⟨⟨by decide, by decide, by decide⟩, by show _ < _; decide⟩, ⟨⟨by decide, by decide, by decide⟩, trivial⟩, ⟨by show _ < _; decide, trivial⟩, trivial⟩

example : specHist [] exOps =
    [[false, false, false] ++ List.replicate 14 false, [false, false, false, false, false, false, false, true] ++ List.replicate 15 false, [true]] := by
  decide

example : Sep 8 exV.vec BV.default.vec ∧ EnvOk exH [exV] [exL] := by
  refine ⟨.inr (.inl rfl), exH_wf, rfl, ?_, ?_⟩
  · intro i v l h1 h2
    rcases i with _ | i
    · cases h1; cases h2; exact exRep
    · simp at h1
  · intro i j v o h1 h2 h3
    rcases i with _ | i
    · rcases j with _ | j
      · exact absurd rfl h3
      · simp at h2
    · simp at h1

end BitLib

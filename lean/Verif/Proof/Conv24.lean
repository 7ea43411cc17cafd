import Verif.Proof.RunFft
/-
Two arithmetics that differ only in the conversion of integers and in the constants of the 8- and 16-point
kernels: the transforms agree when the conversions they make agree and no such kernel is used.
-/
namespace Kofft

variable {T : Type}

/-- `F` with another integer conversion and other kernel constants. -/
def reConst (F : Flt T) (o : ℕ → T) (s c d : T) : Flt T :=
  { F with ofNat := o, sqrtHalf := s, cosPi8 := c, sinPi8 := d }

variable (F : Flt T) (o : ℕ → T) (s c d : T)

theorem stk_re (mul : Cx T → Cx T → Cx T) (n : ℕ) (tw x : ℕ → Cx T) : ∀ k,
    @stk T (reConst F o s c d) mul n tw x k = @stk T F mul n tw x k
  | 0 => rfl
  | k + 1 => by
    show @stageF T (reConst F o s c d) mul _ _ tw (@stk T (reConst F o s c d) mul n tw x k) = _
    rw [stk_re mul n tw x k]; rfl

theorem twLoop_re (a b : T) : ∀ n w, @twLoop T (reConst F o s c d) a b n w = @twLoop T F a b n w
  | 0, _ => rfl
  | n + 1, w => by
    show w :: @twLoop T (reConst F o s c d) a b n _ = w :: @twLoop T F a b n _
    rw [twLoop_re a b n]; rfl

theorem twAt_re (cfg : Cfg) (n i : ℕ) (h : o n = F.ofNat n) :
    @twAt T (reConst F o s c d) cfg n i = @twAt T F cfg n i := by
  have e : @twTable T (reConst F o s c d) n = @twTable T F n := by
    show @twLoop T (reConst F o s c d) (F.cos (F.div _ (o n))) (F.sin (F.div _ (o n))) _ _ = _
    rw [h, twLoop_re]; rfl
  have e2 : @twiddles T (reConst F o s c d) cfg n = @twiddles T F cfg n := by
    unfold twiddles
    rw [e]; rfl
  unfold twAt
  rw [e2]; rfl

theorem freshPow_re (cfg : Cfg) (x : List (Cx T)) (h16 : 16 < x.length) (h : o x.length = F.ofNat x.length) :
    @freshPow T (reConst F o s c d) cfg x = @freshPow T F cfg x := by
  have hs : ∀ mul : Cx T → Cx T → Cx T, @stkOut T (reConst F o s c d) cfg mul x = @stkOut T F cfg mul x := by
    intro mul
    unfold stkOut
    rw [stk_re]
    congr 2
    funext i
    exact twAt_re F o s c d cfg _ i h
  unfold freshPow powOut
  rw [if_neg (by omega), if_neg (by omega), if_neg (by omega), if_neg (by omega)]
  unfold bigOut
  have e : stale (Planner.new : Planner T) x.length = [] := stale_nil _ _ (Nat.zero_le _)
  rw [e, List.append_nil]
  have m1 : @Cx.mulPlain T (reConst F o s c d) = @Cx.mulPlain T F := rfl
  have m2 : @Cx.mul T (reConst F o s c d) = @Cx.mul T F := rfl
  rw [m1, m2, hs, hs]

theorem bluOut_re (cfg : Cfg) (x : List (Cx T)) (h16 : 16 < bluM x.length) (h0 : 0 < x.length)
    (h : o x.length = F.ofNat x.length) (hm : o (bluM x.length) = F.ofNat (bluM x.length))
    (hi : ∀ i, i < x.length → o (i * i) = F.ofNat (i * i)) :
    @bluOut T (reConst F o s c d) cfg x = @bluOut T F cfg x := by
  set n := x.length with hn
  set m := bluM n with hM
  have ha : ∀ i, i < n → @bluAngle T (reConst F o s c d) n i = @bluAngle T F n i := by
    intro i h'
    show F.div (F.mul _ (o (i * i))) (o n) = _
    rw [h, hi i h']; rfl
  have hc : ∀ i, i < n → @chirpAt T (reConst F o s c d) n i = @chirpAt T F n i := by
    intro i h'
    unfold chirpAt
    rw [ha i h']; rfl
  have hb : ∀ i, @bAt T (reConst F o s c d) n i = @bAt T F n i := by
    intro i
    unfold bAt
    split
    · rw [ha i (by assumption)]; rfl
    · split
      · rename_i h1 h2
        rw [ha _ (by omega)]; rfl
      · rfl
  have hp : ∀ y : List (Cx T), y.length = m → @freshPow T (reConst F o s c d) cfg y = @freshPow T F cfg y :=
    fun y hy => freshPow_re F o s c d cfg y (by rw [hy]; exact h16) (by rw [hy]; exact hm)
  have hA : @bluA T (reConst F o s c d) n m m (fun i => x.getD i (@Cx.zero T (reConst F o s c d)))
      (fun _ => @Cx.zero T (reConst F o s c d)) = @bluA T F n m m (fun i => x.getD i (@Cx.zero T F))
      (fun _ => @Cx.zero T F) := by
    unfold bluA
    apply tab_congr
    intro i _
    by_cases h1 : i < n
    · rw [if_pos h1, if_pos h1, hc i h1]; rfl
    · rw [if_neg h1, if_neg h1]; rfl
  have hB : (@bluPair T (reConst F o s c d) cfg n).2 = (@bluPair T F cfg n).2 := by
    show @freshPow T (reConst F o s c d) cfg (tab m _) = @freshPow T F cfg (tab m _)
    rw [show @bAt T (reConst F o s c d) n = @bAt T F n from funext hb]
    exact hp _ (by simp)
  have hmp : isPow2 m = true := bluM_pow2 n
  show @bluPost T (reConst F o s c d) n m (@freshPow T (reConst F o s c d) cfg (@bluMid T (reConst F o s c d)
    (@freshPow T (reConst F o s c d) cfg (@bluA T (reConst F o s c d) n m m _ _))
    (@bluPair T (reConst F o s c d) cfg n).2)) = @bluPost T F n m _
  have e1 : @bluMid T (reConst F o s c d) = @bluMid T F := rfl
  rw [hA, hB, e1]
  have e2 := hp (@bluA T F n m m (fun i => x.getD i (@Cx.zero T F)) (fun _ => @Cx.zero T F)) (by simp [bluA])
  rw [e2]
  have e3 := hp (@bluMid T F (@freshPow T F cfg (@bluA T F n m m (fun i => x.getD i (@Cx.zero T F))
    (fun _ => @Cx.zero T F))) (@bluPair T F cfg n).2) (by
    letI := F
    rw [bluMid_length, freshPow, powOut_length _ _ _ (by simpa [bluA] using hmp)]; simp [bluA])
  rw [e3]
  unfold bluPost
  apply tab_congr
  intro i h'
  show @Cx.mul T F _ (@chirpAt T (reConst F o s c d) n i) = _
  rw [hc i h']
  show @Cx.mul T F ⟨F.mul _ (F.div F.one (o m)), F.mul _ (F.div F.one (o m))⟩ _ = _
  rw [hm]; rfl

/-- The small kernels without constants. -/
theorem freshPow_re_small (cfg : Cfg) (x : List (Cx T)) (h : x.length = 1 ∨ x.length = 2 ∨ x.length = 4) :
    @freshPow T (reConst F o s c d) cfg x = @freshPow T F cfg x := by
  match x, h with
  | [a], _ => rfl
  | [a, b], _ => rfl
  | [a0, a1, a2, a3], _ =>
    rfl
  | [], h => simp at h
  | [_, _, _], h => simp at h
  | _ :: _ :: _ :: _ :: _ :: _, h => simp at h

end Kofft

import Verif.Proof.RunFft
/-
Machine words: `usize` arithmetic that wraps modulo `2^B` and is then converted to a float (`(i * i) as f32`).
-/
namespace Kofft

/-- The arithmetic `F` on a target whose `usize` has `B` bits, in release mode: an integer computed modulo `2^B` and
then converted (`src/fft.rs:417` `(i * i) as f32`; all other converted integers are lengths and positions). -/
@[reducible] def Flt.wrap {T : Type} (F : Flt T) (B : Nat) : Flt T :=
  { F with ofNat := fun n => F.ofNat (n % 2 ^ B) }

variable {T : Type}

theorem twLoop_wrap (F : Flt T) (B : Nat) (c s : T) : ∀ n (w : Cx T),
    @twLoop T (F.wrap B) c s n w = @twLoop T F c s n w
  | 0, _ => rfl
  | n + 1, w => by
    unfold twLoop
    exact congrArg _ (twLoop_wrap F B c s n _)

theorem twTable_wrap (F : Flt T) (B n : Nat) (hn : n < 2 ^ B) : @twTable T (F.wrap B) n = @twTable T F n := by
  unfold twTable
  refine (twLoop_wrap F B _ _ _ _).trans ?_
  show @twLoop T F (F.cos (F.div _ (F.ofNat (n % 2 ^ B)))) (F.sin (F.div _ (F.ofNat (n % 2 ^ B)))) _ _ = _
  rw [Nat.mod_eq_of_lt hn]; rfl

theorem twiddles_wrap (F : Flt T) (B : Nat) (cfg : Cfg) (n : Nat) (hn : n < 2 ^ B) :
    @twiddles T (F.wrap B) cfg n = @twiddles T F cfg n := by
  unfold twiddles
  rw [twTable_wrap F B n hn]; rfl

theorem stk_wrap (F : Flt T) (B : Nat) (mul : Cx T → Cx T → Cx T) (n : Nat) (tw x : Nat → Cx T) : ∀ s,
    @stk T (F.wrap B) mul n tw x s = @stk T F mul n tw x s
  | 0 => rfl
  | s + 1 => by
    unfold stk
    rw [stk_wrap F B mul n tw x s]; rfl

theorem stkOut_wrap (F : Flt T) (B : Nat) (cfg : Cfg) (mul : Cx T → Cx T → Cx T) (z : List (Cx T))
    (hn : z.length < 2 ^ B) : @stkOut T (F.wrap B) cfg mul z = @stkOut T F cfg mul z := by
  have h : (fun i => @twAt T (F.wrap B) cfg z.length i) = @twAt T F cfg z.length := by
    funext i
    unfold twAt
    rw [twiddles_wrap F B cfg _ hn]; rfl
  unfold stkOut
  rw [stk_wrap, show @twAt T (F.wrap B) cfg z.length = _ from h]; rfl

theorem smallOut_wrap (F : Flt T) (B : Nat) (cfg : Cfg) (x : List (Cx T)) :
    @smallOut T (F.wrap B) cfg x = @smallOut T F cfg x := by
  have : @smallKernel T (F.wrap B) cfg x = @smallKernel T F cfg x := by
    unfold smallKernel
    rfl
  unfold smallOut
  rw [this]

theorem freshPow_wrap (F : Flt T) (B : Nat) (cfg : Cfg) (x : List (Cx T)) (hn : x.length < 2 ^ B) :
    @freshPow T (F.wrap B) cfg x = @freshPow T F cfg x := by
  have hs : ∀ (n : Nat), @stale T Planner.new n = [] := by
    intro n; simp [stale, Planner.new]
  unfold freshPow powOut bigOut
  rw [smallOut_wrap, hs, List.append_nil, stkOut_wrap F B cfg _ x hn, stkOut_wrap F B cfg _ x hn]
  rfl

theorem bluAngle_wrap (F : Flt T) (B n i : Nat) (hn : n < 2 ^ B) (hi : i * i < 2 ^ B) :
    @bluAngle T (F.wrap B) n i = @bluAngle T F n i := by
  unfold bluAngle
  show F.div (F.mul F.pi (F.ofNat (i * i % 2 ^ B))) (F.ofNat (n % 2 ^ B)) = _
  rw [Nat.mod_eq_of_lt hn, Nat.mod_eq_of_lt hi]

theorem bluOut_wrap (F : Flt T) (B : Nat) (cfg : Cfg) (x : List (Cx T)) (hn : x.length ≤ 2 ^ (B / 2)) (hB : 4 ≤ B) :
    @bluOut T (F.wrap B) cfg x = @bluOut T F cfg x := by
  set n := x.length with hnx
  have h2 : 2 ^ (B / 2) * 2 ^ (B / 2) ≤ 2 ^ B := by
    rw [← pow_add]; exact Nat.pow_le_pow_right (by norm_num) (by omega)
  have h3 : 2 ^ (B / 2 + 1) < 2 ^ B := Nat.pow_lt_pow_right (by norm_num) (by omega)
  have h4 : 2 ^ (B / 2) < 2 ^ B := Nat.pow_lt_pow_right (by norm_num) (by omega)
  have hM : bluM n < 2 ^ B := by
    refine lt_of_le_of_lt ?_ h3
    unfold bluM nextPow2
    apply Nat.pow_le_pow_right (by norm_num)
    apply Nat.clog_le_of_le_pow
    rw [pow_succ]; omega
  have hsq : ∀ i, i < n → i * i < 2 ^ B := by
    intro i hi
    calc i * i < n * n := Nat.mul_self_lt_mul_self hi
      _ ≤ 2 ^ (B / 2) * 2 ^ (B / 2) := Nat.mul_le_mul hn hn
      _ ≤ _ := h2
  have hang : ∀ i, i < n → @bluAngle T (F.wrap B) n i = @bluAngle T F n i :=
    fun i hi => bluAngle_wrap F B n i (by omega) (hsq i hi)
  have hch : ∀ i, i < n → @chirpAt T (F.wrap B) n i = @chirpAt T F n i := by
    intro i hi; unfold chirpAt; rw [hang i hi]; rfl
  have hb : ∀ i, i < bluM n → @bAt T (F.wrap B) n i = @bAt T F n i := by
    intro i hi
    unfold bAt
    by_cases h : i < n
    · rw [if_pos h, if_pos h, hang i h]; rfl
    · rw [if_neg h, if_neg h]
      by_cases h' : bluM n - n < i
      · rw [if_pos h', if_pos h', hang _ (by omega)]; rfl
      · rw [if_neg h', if_neg h']; rfl
  have hp : (@bluPair T (F.wrap B) cfg n).2 = (@bluPair T F cfg n).2 := by
    show @freshPow T (F.wrap B) cfg _ = @freshPow T F cfg _
    rw [freshPow_wrap F B cfg _ (by rw [tab_length]; exact hM), tab_congr hb]
  have hA : @bluA T (F.wrap B) n (bluM n) (bluM n) (fun i => x.getD i Cx.zero) (fun _ => Cx.zero) =
      @bluA T F n (bluM n) (bluM n) (fun i => x.getD i Cx.zero) (fun _ => Cx.zero) := by
    unfold bluA
    apply tab_congr
    intro i _
    by_cases h : i < n
    · rw [if_pos h, if_pos h, hch i h]; rfl
    · rw [if_neg h, if_neg h]; rfl
  have hpost : ∀ a, @bluPost T (F.wrap B) n (bluM n) a = @bluPost T F n (bluM n) a := by
    intro a
    unfold bluPost
    apply tab_congr
    intro i hi
    show @Cx.mul T F ⟨F.mul _ (F.div F.one (F.ofNat (bluM n % 2 ^ B))), F.mul _ (F.div F.one (F.ofNat (bluM n % 2 ^ B)))⟩ (@chirpAt T (F.wrap B) n i) = _
    rw [hch i hi, Nat.mod_eq_of_lt hM]; rfl
  have hAl : ∀ G : Flt T, (@bluA T G n (bluM n) (bluM n) (fun i => x.getD i Cx.zero) (fun _ => Cx.zero)).length = bluM n := by
    intro G; exact tab_length _ _
  have hfl : ∀ y : List (Cx T), y.length = bluM n → (@freshPow T F cfg y).length = bluM n := by
    intro y hy
    rw [freshPow, powOut_length cfg _ _ (by rw [hy]; exact bluM_pow2 n), hy]
  have e1 : @freshPow T (F.wrap B) cfg (@bluA T (F.wrap B) n (bluM n) (bluM n) (fun i => x.getD i (@Cx.zero T (F.wrap B)))
      (fun _ => @Cx.zero T (F.wrap B))) = @freshPow T F cfg (@bluA T F n (bluM n) (bluM n) (fun i => x.getD i Cx.zero)
      (fun _ => Cx.zero)) := by
    refine (freshPow_wrap F B cfg _ ?_).trans (congrArg _ hA)
    exact lt_of_eq_of_lt (tab_length _ _) hM
  have hmid : ∀ a b, @bluMid T (F.wrap B) a b = @bluMid T F a b := by intro a b; rfl
  refine (hpost _).trans ?_
  refine congrArg (@bluPost T F n (bluM n)) ?_
  refine (congrArg (@freshPow T (F.wrap B) cfg) ((hmid _ _).trans (congrArg₂ (@bluMid T F) e1 hp))).trans ?_
  apply freshPow_wrap
  rw [bluMid, List.length_map, copyPrefix_length, hfl _ (hAl F)]; exact hM

/-- Up to `2^(B/2)` points (power of two: up to `2^B - 1`) wrapping arithmetic makes no difference. -/
theorem freshOut_wrap (F : Flt T) (B : Nat) (cfg : Cfg) (x : List (Cx T)) (hB : 4 ≤ B)
    (hn : x.length ≤ 2 ^ (B / 2) ∨ (isPow2 x.length = true ∧ x.length < 2 ^ B)) :
    @freshOut T (F.wrap B) cfg x = @freshOut T F cfg x := by
  have h4 : 2 ^ (B / 2) < 2 ^ B := Nat.pow_lt_pow_right (by norm_num) (by omega)
  unfold freshOut
  by_cases hp : isPow2 x.length = true
  · rw [if_pos hp, if_pos hp]
    exact freshPow_wrap F B cfg x (by omega)
  · rw [if_neg hp, if_neg hp]
    exact bluOut_wrap F B cfg x (by rcases hn with h | h; exact h; exact absurd h.1 hp) hB

end Kofft

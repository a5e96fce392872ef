import Verif.Fastlz.Model

/-! Helper lemmas for the FastLZ round trip. -/

namespace Verif.Fastlz

/-! ### Copying -/

theorem copyBytes_add (out : List Nat) (src a b : Nat) :
    copyBytes out src (a + b) = copyBytes (copyBytes out src a) (src + a) b := by
  induction a generalizing out src with
  | zero => simp [copyBytes]
  | succ a ih =>
    rw [show a + 1 + b = (a + b) + 1 by omega]
    simp only [copyBytes]
    rw [ih, show src + 1 + a = src + (a + 1) by omega]

theorem copyBytes_length (out : List Nat) (src n : Nat) :
    (copyBytes out src n).length = out.length + n := by
  induction n generalizing out src with
  | zero => simp [copyBytes]
  | succ n ih => simp only [copyBytes]; rw [ih]; simp; omega

theorem getD_append_left (a b : List Nat) (i : Nat) (h : i < a.length) :
    (a ++ b).getD i 0 = a.getD i 0 := by
  simp [List.getD_eq_getElem?_getD, List.getElem?_append_left h]

theorem copyWords_eq (out : List Nat) (src n : Nat) (h : src + 2 ≤ out.length) :
    copyWords out src n = copyBytes out src (2 * n) := by
  induction n generalizing out src with
  | zero => simp [copyWords, copyBytes]
  | succ n ih =>
    rw [show 2 * (n + 1) = (2 * n) + 1 + 1 by omega]
    simp only [copyWords, copyBytes]
    rw [ih _ _ (by simp; omega)]
    rw [getD_append_left out _ (src + 1) (by omega)]
    simp

theorem copyRun_eq (out : List Nat) (n : Nat) (h : out ≠ []) :
    copyRun out (out.getD (out.length - 1) 0) n = copyBytes out (out.length - 1) n := by
  induction n generalizing out with
  | zero => simp [copyRun, copyBytes]
  | succ n ih =>
    have hl : 0 < out.length := List.length_pos_iff.2 h
    have hs : out.length - 1 + 1 = (out ++ [out.getD (out.length - 1) 0]).length - 1 := by
      simp; omega
    simp only [copyBytes]
    rw [hs, ← ih _ (by simp)]
    have hb : (out ++ [out.getD (out.length - 1) 0]).getD
        ((out ++ [out.getD (out.length - 1) 0]).length - 1) 0 = out.getD (out.length - 1) 0 := by
      simp [List.getD_eq_getElem?_getD]
    rw [hb]
    simp [copyRun, List.replicate_succ]

theorem copyFast_eq (out : List Nat) (src len : Nat) (h : src + 2 ≤ out.length) :
    copyFast out src len = copyBytes out src (len + 3) := by
  have e1 : len &&& 1 = len % 2 := Nat.and_one_is_mod len
  unfold copyFast
  dsimp only
  rw [e1]
  split
  · rename_i ho
    rw [← copyBytes_add out src 3 1,
      copyWords_eq _ _ _ (by rw [copyBytes_length]; omega), Nat.shiftRight_eq_div_pow,
      show src + 3 + 1 = src + (3 + 1) by omega, ← copyBytes_add]
    congr 1
    omega
  · rename_i ho
    rw [copyWords_eq _ _ _ (by rw [copyBytes_length]; omega), Nat.shiftRight_eq_div_pow,
      ← copyBytes_add]
    congr 1
    omega

theorem copyMatch_eq (al : Align) (out : List Nat) (d len : Nat) (h : d + 1 ≤ out.length) :
    copyMatch al out (out.length - d) len = copyBytes out (out.length - d - 1) (len + 3) := by
  unfold copyMatch
  split
  · rename_i h0
    have hne : out ≠ [] := by intro hc; simp [hc] at h
    rw [h0, copyRun_eq _ _ hne, Nat.add_comm]
  · rename_i h0
    cases al with
    | strict => rfl
    | fast => exact copyFast_eq _ _ _ (by omega)

/-! ### Tokens -/

/-- A token of the compressed stream: literal run, or match with biased length and
distance. -/
inductive Tok where
  | lit (bs : List Nat)
  | cpy (len dist : Nat)

def encTok : Tok → List Nat
  | .lit bs => (bs.length - 1) :: bs
  | .cpy l d => encodeMatch l d

def applyTok (out : List Nat) : Tok → List Nat
  | .lit bs => out ++ bs
  | .cpy l d => copyBytes out (out.length - d - 1) (l + 2)

def TokOk (out : List Nat) : Tok → Prop
  | .lit bs => 1 ≤ bs.length ∧ bs.length ≤ 32
  | .cpy l d => 1 ≤ l ∧ d + 1 ≤ out.length ∧ d < 8191 + 65536

def encToks (ts : List Tok) : List Nat := ts.flatMap encTok

def applyToks (out : List Nat) (ts : List Tok) : List Nat := ts.foldl applyTok out

def ToksOk : List Nat → List Tok → Prop
  | _, [] => True
  | out, t :: ts => TokOk out t ∧ ToksOk (applyTok out t) ts

theorem applyToks_append (out : List Nat) (a b : List Tok) :
    applyToks out (a ++ b) = applyToks (applyToks out a) b := by
  simp [applyToks]

theorem toksOk_append (out : List Nat) (a b : List Tok) :
    ToksOk out (a ++ b) ↔ ToksOk out a ∧ ToksOk (applyToks out a) b := by
  induction a generalizing out with
  | nil => simp [ToksOk, applyToks]
  | cons t a ih => simp [ToksOk, applyToks, ih, and_assoc]

theorem applyTok_length (out : List Nat) (t : Tok) :
    out.length ≤ (applyTok out t).length := by
  cases t with
  | lit bs => simp [applyTok]
  | cpy l d => simp [applyTok, copyBytes_length]

theorem applyToks_length (out : List Nat) (ts : List Tok) :
    out.length ≤ (applyToks out ts).length := by
  induction ts generalizing out with
  | nil => simp [applyToks]
  | cons t ts ih =>
    exact Nat.le_trans (applyTok_length out t) (ih (applyTok out t))

/-! ### Decoding one match -/

theorem readLen_lenCode (acc l : Nat) (s : List Nat) :
    readLen acc (lenCode l ++ s) = some (acc + l, s) := by
  induction l using Nat.strongRecOn generalizing acc with
  | ind l ih =>
    unfold lenCode
    split
    · rename_i h
      simp only [List.cons_append, readLen, if_true]
      rw [ih (l - 255) (by omega)]
      simp; omega
    · rename_i h
      simp only [List.cons_append, List.nil_append, readLen]
      rw [if_neg (by omega)]

theorem ctrl_len (l x : Nat) (h : x < 32) : ((l <<< 5) + x) >>> 5 = l := by
  rw [Nat.shiftLeft_eq, Nat.shiftRight_eq_div_pow]; omega

theorem ctrl_ofs (l x : Nat) (h : x < 32) : ((l <<< 5) + x) &&& 31 = x := by
  rw [Nat.shiftLeft_eq, show 31 = 2 ^ 5 - 1 from rfl, Nat.and_two_pow_sub_one_eq_mod]; omega

theorem ofs_code (d : Nat) : (d >>> 8) <<< 8 + (d &&& 255) = d := by
  rw [Nat.shiftLeft_eq, show 255 = 2 ^ 8 - 1 from rfl, Nat.and_two_pow_sub_one_eq_mod,
    Nat.shiftRight_eq_div_pow]; omega

theorem and255 (d : Nat) : d &&& 255 = d % 256 := by
  rw [show 255 = 2 ^ 8 - 1 from rfl, Nat.and_two_pow_sub_one_eq_mod]

theorem encodeMatch_read (l d : Nat) (hl : 1 ≤ l) (hd : d < 8191 + 65536) (s : List Nat) :
    ∃ c r, encodeMatch l d ++ s = c :: r ∧ c ≥ 32 ∧ readMatch 2 c r = some (l - 1, d, s) := by
  unfold encodeMatch
  split
  · rename_i hn
    have hx : d >>> 8 < 32 := by rw [Nat.shiftRight_eq_div_pow]; omega
    have hnf : ¬ ((d &&& 255) = 255 ∧ (d >>> 8) <<< 8 = 31 <<< 8) := by
      rintro ⟨h1, h2⟩
      have := ofs_code d
      rw [h1, h2] at this
      simp at this; omega
    split
    · rename_i hs
      refine ⟨_, _, List.cons_append, by rw [Nat.shiftLeft_eq]; omega, ?_⟩
      simp only [readMatch, ctrl_len _ _ hx, ctrl_ofs _ _ hx]
      have h6 : ¬ l - 1 = 6 := by omega
      simp only [h6, Nat.reduceEqDiff, if_false, List.nil_append, List.cons_append]
      rw [if_neg hnf, ofs_code]
    · rename_i hs
      refine ⟨_, _, List.cons_append, by rw [Nat.shiftLeft_eq]; omega, ?_⟩
      simp only [readMatch, ctrl_len _ _ hx, ctrl_ofs _ _ hx, List.append_assoc,
        readLen_lenCode, if_true, Nat.reduceSub]
      simp only [Nat.reduceEqDiff, if_false, List.cons_append, List.nil_append]
      rw [if_neg hnf, ofs_code]
      simp; omega
  · rename_i hf
    have hx : (31 : Nat) < 32 := by omega
    dsimp only
    split
    · rename_i hs
      refine ⟨_, _, List.cons_append, by rw [Nat.shiftLeft_eq]; omega, ?_⟩
      simp only [readMatch, ctrl_len _ _ hx, ctrl_ofs _ _ hx]
      have h6 : ¬ l - 1 = 6 := by omega
      simp only [h6, Nat.reduceEqDiff, if_false, List.nil_append, List.cons_append, and_self, if_true,
        ofs_code]
      simp; omega
    · rename_i hs
      refine ⟨_, _, List.cons_append, by rw [Nat.shiftLeft_eq]; omega, ?_⟩
      simp only [readMatch, ctrl_len _ _ hx, ctrl_ofs _ _ hx, List.append_assoc,
        readLen_lenCode, if_true, Nat.reduceSub]
      simp only [Nat.reduceEqDiff, if_false, List.cons_append, List.nil_append,
        and_self, if_true, ofs_code]
      simp; omega

/-! ### Decoding a token list -/

theorem decLoop_toks (al : Align) (maxout : Nat) (ts : List Tok) :
    ∀ (t : Tok) (out : List Nat) (fuel : Nat) (c : Nat) (r : List Nat),
      encToks (t :: ts) = c :: r → ToksOk out (t :: ts) →
      (applyToks out (t :: ts)).length ≤ maxout → ts.length < fuel →
      decLoop al 2 maxout fuel c r out = .ok (applyToks out (t :: ts)) := by
  induction ts with
  | nil =>
    intro t out fuel c r henc hok hmax hfuel
    obtain ⟨fuel, rfl⟩ : ∃ f, fuel = f + 1 := ⟨fuel - 1, by simp at hfuel; omega⟩
    cases t with
    | lit bs =>
      simp only [encToks, List.flatMap_cons, List.flatMap_nil, encTok, List.append_nil,
        List.cons.injEq] at henc
      obtain ⟨rfl, rfl⟩ := henc
      simp only [ToksOk, TokOk] at hok
      simp only [applyToks, List.foldl, applyTok] at hmax ⊢
      rw [List.length_append] at hmax
      simp only [decLoop]
      rw [if_neg (by omega), if_neg (by omega), if_neg (by omega)]
      rw [show bs.length - 1 + 1 = bs.length by omega]
      simp
    | cpy l d =>
      simp only [encToks, List.flatMap_cons, List.flatMap_nil, encTok] at henc
      simp only [ToksOk, TokOk] at hok
      obtain ⟨⟨h1, h2, h3⟩, -⟩ := hok
      obtain ⟨c', r', he, hc, hr⟩ := encodeMatch_read l d h1 h3 []
      rw [he] at henc
      obtain ⟨rfl, rfl⟩ := List.cons.inj henc
      simp only [applyToks, List.foldl, applyTok, copyBytes_length] at hmax ⊢
      simp only [decLoop]
      rw [if_pos hc, hr]
      dsimp only
      rw [if_neg (by omega), if_neg (by omega), copyMatch_eq _ _ _ _ h2]
      rw [show l - 1 + 3 = l + 2 by omega]
  | cons t' ts ih =>
    intro t out fuel c r henc hok hmax hfuel
    obtain ⟨fuel, rfl⟩ : ∃ f, fuel = f + 1 := ⟨fuel - 1, by simp at hfuel; omega⟩
    obtain ⟨hokt, hokts⟩ := hok
    have hlen := applyToks_length (applyTok out t) (t' :: ts)
    have hne : ∃ c2 r2, encToks (t' :: ts) = c2 :: r2 := by
      cases t' with
      | lit bs => exact ⟨_, _, rfl⟩
      | cpy l d =>
        obtain ⟨h1, h2, h3⟩ := hokts.1
        obtain ⟨c', r', he, _⟩ := encodeMatch_read l d h1 h3 (encToks ts)
        exact ⟨c', r', by simpa [encToks, encTok] using he⟩
    obtain ⟨c2, r2, he2⟩ := hne
    have hrec := ih t' (applyTok out t) fuel c2 r2 he2 hokts hmax (by simp at hfuel ⊢; omega)
    have hmax' : (applyTok out t).length ≤ maxout := Nat.le_trans hlen hmax
    have henc' : encTok t ++ (c2 :: r2) = c :: r := by
      rw [← he2, ← henc]; rfl
    cases t with
    | lit bs =>
      simp only [encTok, List.cons_append, List.cons.injEq] at henc'
      obtain ⟨rfl, rfl⟩ := henc'
      simp only [TokOk] at hokt
      simp only [applyTok] at hmax' hrec
      rw [List.length_append] at hmax'
      simp only [decLoop]
      rw [if_neg (by omega), if_neg (by omega), if_neg (by rw [List.length_append]; omega)]
      rw [show bs.length - 1 + 1 = bs.length by omega]
      rw [List.drop_left, List.take_left]
      exact hrec
    | cpy l d =>
      obtain ⟨h1, h2, h3⟩ := hokt
      obtain ⟨c', r', he, hc, hr⟩ := encodeMatch_read l d h1 h3 (c2 :: r2)
      simp only [encTok] at henc'
      rw [he] at henc'
      obtain ⟨rfl, rfl⟩ := List.cons.inj henc'
      simp only [applyTok, copyBytes_length] at hmax'
      simp only [decLoop]
      rw [if_pos hc, hr]
      dsimp only
      rw [if_neg (by omega), if_neg (by omega), copyMatch_eq _ _ _ _ h2]
      rw [show l - 1 + 3 = l + 2 by omega]
      exact hrec

/-! ### Match verification in the compressor -/

theorem take_succ_inp (data : List Nat) (i : Nat) (h : i < data.length) :
    data.take (i + 1) = data.take i ++ [inp data i] := by
  rw [List.take_add_one, List.getElem?_eq_getElem h]
  simp [inp, List.getD_eq_getElem?_getD, List.getElem?_eq_getElem h]

theorem take_getD (data : List Nat) (i j : Nat) (h : i < j) :
    (data.take j).getD i 0 = inp data i := by
  simp [inp, List.getD_eq_getElem?_getD, List.getElem?_take, h]

theorem copyBytes_take (data : List Nat) (m : Nat) :
    ∀ (a D : Nat), 1 ≤ D → D ≤ a → a + m ≤ data.length →
      (∀ i, a ≤ i → i < a + m → inp data i = inp data (i - D)) →
      copyBytes (data.take a) (a - D) m = data.take (a + m) := by
  induction m with
  | zero => intros; simp [copyBytes]
  | succ m ih =>
    intro a D h1 h2 h3 h
    simp only [copyBytes]
    rw [take_getD _ _ _ (by omega), ← h a (Nat.le_refl _) (by omega),
      ← take_succ_inp data a (by omega)]
    rw [show a - D + 1 = (a + 1) - D by omega]
    rw [ih (a + 1) D h1 (by omega) (by omega) (fun i hi hi2 => h i (by omega) (by omega))]
    congr 1; omega

theorem cmpLoop_spec (data : List Nat) (bound D : Nat) :
    ∀ (k ip : Nat), bound - ip = k → D ≤ ip →
      let e := cmpLoop data bound (ip - D) ip
      ip ≤ e ∧ e ≤ max ip bound ∧ ∀ i, ip ≤ i → i + 1 < e → inp data i = inp data (i - D) := by
  intro k
  induction k with
  | zero =>
    intro ip hk hD
    unfold cmpLoop
    rw [dif_neg (by omega)]
    refine ⟨by omega, by omega, fun i h1 h2 => by omega⟩
  | succ k ih =>
    intro ip hk hD
    unfold cmpLoop
    rw [dif_pos (by omega)]
    by_cases hq : inp data (ip - D) = inp data ip
    · rw [if_neg (by simpa using hq)]
      have := ih (ip + 1) (by omega) (by omega)
      rw [show ip + 1 - D = ip - D + 1 by omega] at this
      obtain ⟨a, b, c⟩ := this
      refine ⟨by omega, by omega, fun i h1 h2 => ?_⟩
      by_cases hi : i = ip
      · subst hi; exact hq.symm
      · exact c i (by omega) h2
    · rw [if_pos hq]
      exact ⟨by omega, by omega, fun i h1 h2 => by omega⟩

theorem cmpUnrolled_spec (data : List Nat) (bound D : Nat) :
    ∀ (k ip : Nat), D ≤ ip →
      let e := cmpUnrolled data bound k (ip - D) ip
      ip ≤ e ∧ (1 ≤ k → ip + 1 ≤ e) ∧ e ≤ max (ip + k) bound ∧
        ∀ i, ip ≤ i → i + 1 < e → inp data i = inp data (i - D) := by
  intro k
  induction k with
  | zero =>
    intro ip hD
    have := cmpLoop_spec data bound D _ ip rfl hD
    simp only [cmpUnrolled]
    obtain ⟨a, b, c⟩ := this
    exact ⟨a, by omega, by omega, c⟩
  | succ k ih =>
    intro ip hD
    simp only [cmpUnrolled]
    by_cases hq : inp data (ip - D) = inp data ip
    · rw [if_neg (by simpa using hq)]
      have := ih (ip + 1) (by omega)
      rw [show ip + 1 - D = ip - D + 1 by omega] at this
      obtain ⟨a, _, b, c⟩ := this
      refine ⟨by omega, by omega, by omega, fun i h1 h2 => ?_⟩
      by_cases hi : i = ip
      · subst hi; exact hq.symm
      · exact c i (by omega) h2
    · rw [if_pos hq]
      exact ⟨by omega, by omega, by omega, fun i h1 h2 => by omega⟩

theorem runLoop_spec (data : List Nat) (x bound : Nat) :
    ∀ (k ip : Nat), bound - ip = k → 1 ≤ ip →
      let e := runLoop data x bound (ip - 1) ip
      ip ≤ e ∧ e ≤ max ip bound ∧ (ip < bound → inp data (ip - 1) = x → ip + 1 ≤ e) ∧
        ∀ i, ip ≤ i + 1 → i + 1 < e → inp data i = x := by
  intro k
  induction k with
  | zero =>
    intro ip hk hD
    unfold runLoop
    rw [dif_neg (by omega)]
    refine ⟨by omega, by omega, by omega, fun i h1 h2 => by omega⟩
  | succ k ih =>
    intro ip hk hD
    unfold runLoop
    rw [dif_pos (by omega)]
    by_cases hq : inp data (ip - 1) = x
    · rw [if_neg (by simpa using hq)]
      have := ih (ip + 1) (by omega) (by omega)
      rw [show ip + 1 - 1 = ip - 1 + 1 by omega] at this
      obtain ⟨a, b, _, c⟩ := this
      refine ⟨by omega, by omega, by omega, fun i h1 h2 => ?_⟩
      by_cases hi : i + 1 = ip
      · subst hi; exact hq
      · exact c i (by omega) h2
    · rw [if_pos hq]
      refine ⟨by omega, by omega, ?_, fun i h1 h2 => by omega⟩
      intro _ h; exact absurd h hq

end Verif.Fastlz

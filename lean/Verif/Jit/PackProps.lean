import Verif.Jit.PackModel
import Verif.Fbuf.VarintProps

/-! Property theorems for C08. -/

namespace Verif.Jit

open Verif.Fbuf

/-! ## Specification -/

/-- The location that is expected back: the same file, line and column, no extent. -/
def expLoc (files : List Name) (l : WLoc) : RLoc :=
  ⟨l.file.bind (files[·]?), l.line, l.column, 0, 0⟩

/-- The value that is expected back: positions in vcode are dropped on purpose. -/
def expVal (files : List Name) : Val WLoc → Val RLoc
  | .invalid => .invalid
  | .reg r => .reg r
  | .int64 v => .int64 v
  | .double b => .double b
  | .addrReg r d => .addrReg r d
  | .addrAbs v => .addrAbs v
  | .addrCpool v => .addrCpool v
  | .addrCover v => .addrCover v
  | .label l => .label l
  | .handle h => .handle h
  | .exit e => .exit e
  | .loc l => .loc (expLoc files l)
  | .vpos _ _ => .invalid
  | .locus m o => .locus m o

def expIr (files : List Name) (ir : Ir WLoc) : Ir RLoc :=
  ⟨ir.op, ir.size, ir.target, ir.cc, ir.result, expVal files ir.arg1, expVal files ir.arg2⟩

def expFunc (files : List Name) (f : Func WLoc) : Func RLoc :=
  ⟨f.nregs, f.cpoolsz, f.spec, f.framesz, f.linktab, f.module, f.offset,
    f.irs.map (expIr files)⟩

/-- Names are C strings. -/
def GoodName (s : Name) : Prop := s ≠ [] ∧ 0 ∉ s

instance (s : Name) : Decidable (GoodName s) := by unfold GoodName; infer_instance

/-- File names as they are registered: C strings without adjacent slashes. -/
def GoodFile (s : Name) : Prop := 0 ∉ s ∧ ¬ [47, 47] <:+: s

def GoodLoc (files : List Name) (l : WLoc) : Prop :=
  (∃ k, l.file = some k ∧ k < files.length) ∧ l.line < 2 ^ 20 ∧ l.column < 2 ^ 12

def GoodReg (r : Nat) : Prop := r = 65535 ∨ r < 65533

def GoodVal (files : List Name) : Val WLoc → Prop
  | .reg r => GoodReg r
  | .addrReg r _ => GoodReg r
  | .handle (some n) => GoodName n
  | .exit e => e < 256
  | .loc l => GoodLoc files l
  | .locus m o => GoodName m ∧ o < 2 ^ 64
  | _ => True

structure GoodIr (files : List Name) (ir : Ir WLoc) : Prop where
  op : ir.op < 256
  size : ir.size < 8
  target : ir.target < 2
  cc : ir.cc < 16
  result : GoodReg ir.result
  arg1 : GoodVal files ir.arg1
  arg2 : GoodVal files ir.arg2

structure GoodFunc (files : List Name) (f : Func WLoc) : Prop where
  nregs : f.nregs < 2 ^ 32
  cpoolsz : f.cpoolsz < 2 ^ 32
  framesz : f.framesz < 2 ^ 32
  nvars : f.linktab.length < 2 ^ 31
  links : ∀ l ∈ f.linktab, GoodName l.1 ∧ l.2 < 2 ^ 32
  module : GoodName f.module
  offset : f.offset < 2 ^ 64
  nirs : f.irs.length < 2 ^ 31
  irs : ∀ ir ∈ f.irs, GoodIr files ir

/-! ## The string table -/

/-- Every indexed string stands in the table at its offset. -/
def Inv (pw : PW) : Prop :=
  pw.tab ≠ [] ∧ ∀ s, pw.index s ≠ 0 → 0 ∉ s ∧
    ∃ pre post, pw.tab = pre ++ (s ++ 0 :: post) ∧ pre.length = pw.index s

theorem inv_new : Inv PW.new := ⟨by simp [PW.new], fun s h => absurd rfl h⟩

theorem takeWhile_nul (s post : List Nat) (h : 0 ∉ s) :
    (s ++ 0 :: post).takeWhile (· ≠ 0) = s := by
  induction s with
  | nil => simp
  | cons a s ih =>
    have ha : a ≠ 0 := fun e => h (by simp [e])
    have := ih (fun e => h (List.mem_cons_of_mem _ e))
    simp only [List.cons_append, List.takeWhile_cons, ha, ne_eq, not_false_eq_true,
      decide_true, if_true]
    simpa using this

theorem cstr_at (T pre s post : List Nat) (h : T = pre ++ (s ++ 0 :: post)) (h0 : 0 ∉ s) :
    cstr T pre.length = some s := by
  subst h
  unfold cstr
  rw [if_pos (by simp; omega)]
  rw [List.drop_left, takeWhile_nul s post h0]

structure StrSpec (pw pw' : PW) (off : Nat) (s : Name) : Prop where
  inv : Inv pw'
  pos : off ≠ 0
  bound : off < pw'.tab.length
  pre : pw.tab <+: pw'.tab
  last : pw'.last = pw.last
  at' : ∀ T, pw'.tab <+: T → cstr T off = some s

theorem getString_spec (pw : PW) (s : Name) (h : Inv pw) (h0 : 0 ∉ s) :
    StrSpec pw (getString pw (some s)).2 (getString pw (some s)).1 s := by
  unfold getString
  dsimp only
  by_cases c : pw.index s ≠ 0
  · rw [if_pos c]
    obtain ⟨_, pre, post, e1, e2⟩ := h.2 s c
    refine ⟨h, c, ?_, List.prefix_refl _, rfl, ?_⟩
    · show pw.index s < pw.tab.length
      rw [e1, ← e2]; simp; omega
    · rintro T ⟨t, rfl⟩
      show cstr _ (pw.index s) = _
      rw [← e2]
      exact cstr_at _ pre s (post ++ t) (by rw [e1]; simp) h0
  · rw [if_neg c]
    have hl : pw.tab.length ≠ 0 := by simpa using h.1
    refine ⟨⟨by simp, ?_⟩, hl, by simp, List.prefix_append _ _, rfl, ?_⟩
    · intro x hx
      show 0 ∉ x ∧ ∃ pre post, pw.tab ++ (s ++ [0]) = pre ++ (x ++ 0 :: post) ∧ _
      dsimp only at hx ⊢
      by_cases e : x = s
      · subst e
        exact ⟨h0, pw.tab, [], by simp, by simp⟩
      · rw [if_neg e] at hx ⊢
        obtain ⟨g0, pre, post, e1, e2⟩ := h.2 x hx
        exact ⟨g0, pre, post ++ (s ++ [0]), by rw [e1]; simp, e2⟩
    · rintro T ⟨t, rfl⟩
      exact cstr_at _ pw.tab s t (by simp) h0

theorem unpackStr_packStr (pw : PW) (s : Name) (h : Inv pw) (h0 : 0 ∉ s) (T rest : List Nat)
    (hT : (packStr pw (some s)).2.tab <+: T) (hl : T.length < 2 ^ 32) :
    unpackStr T ((packStr pw (some s)).1 ++ rest) = .ok (some s) rest := by
  have sp := getString_spec pw s h h0
  have hb : (getString pw (some s)).1 < 2 ^ 32 :=
    Nat.lt_of_lt_of_le sp.bound (Nat.le_trans hT.length_le (Nat.le_of_lt hl))
  unfold unpackStr packStr
  rw [getUint_putUint _ (by omega)]
  simp only [rbind]
  rw [Nat.mod_eq_of_lt hb, if_neg sp.pos, sp.at' T hT]

theorem unpackStr_null (T rest : List Nat) : unpackStr T (0 :: rest) = .ok none rest := by
  have := getUint_putUint 0 (by omega) rest
  have e : putUint 0 = [0] := by decide +kernel
  rw [e] at this
  unfold unpackStr
  simp only [List.cons_append, List.nil_append] at this
  rw [this]
  simp [rbind]

theorem unpackIdent_packStr (pw : PW) (s : Name) (h : Inv pw) (hs : GoodName s)
    (T rest : List Nat) (hT : (packStr pw (some s)).2.tab <+: T) (hl : T.length < 2 ^ 32) :
    unpackIdent T ((packStr pw (some s)).1 ++ rest) = .ok s rest := by
  unfold unpackIdent
  rw [unpackStr_packStr pw s h hs.2 T rest hT hl]
  cases s with
  | nil => exact absurd rfl hs.1
  | cons c s => rfl

/-! ## Registers, locations, values -/

theorem unpackReg_packReg (r : Nat) (h : GoodReg r) (rest : List Nat) :
    unpackReg (packReg r ++ rest) = .ok r rest := by
  unfold unpackReg packReg
  rcases h with rfl | h
  · rw [getUint_putUint _ (by decide)]; rfl
  · have h1 : r ≠ 65535 := by omega
    rw [if_neg h1, getUint_putUint _ (by omega)]
    simp only [rbind]
    rw [if_pos (by omega), if_neg (by omega), Nat.add_sub_cancel]

theorem strip_id (s : Name) (h : ¬ [47, 47] <:+: s) : stripSlashes s = s := by
  induction s with
  | nil => rfl
  | cons a s ih =>
    cases s with
    | nil => rfl
    | cons b s =>
      unfold stripSlashes
      have hn : ¬ (a = 47 ∧ b = 47) := by
        rintro ⟨rfl, rfl⟩
        exact h ⟨[], s, by simp⟩
      rw [if_neg hn, ih]
      rintro ⟨p, q, e⟩
      exact h ⟨a :: p, q, by simpa using e⟩

theorem delta_back (a b n : Nat) (h : b < 2 ^ n) (hn : n ≤ 64) :
    (BitVec.ofNat 64 a + BitVec.ofInt 64 ((b : Int) - a)).toNat % 2 ^ n = b := by
  have e : BitVec.ofNat 64 a + BitVec.ofInt 64 ((b : Int) - a) = BitVec.ofNat 64 b := by
    rw [← BitVec.ofInt_natCast, ← BitVec.ofInt_add, ← BitVec.ofInt_natCast]
    congr 1; omega
  have hb : b < 2 ^ 64 := Nat.lt_of_lt_of_le h (Nat.pow_le_pow_right (by omega) hn)
  rw [e, BitVec.toNat_ofNat, Nat.mod_eq_of_lt hb, Nat.mod_eq_of_lt h]

/-- Writer and reader agree on the last location if the writer will refer to it. -/
def Sync (files : List Name) (w : WLoc) (r : RLoc) : Prop :=
  locInvalid w = false → r = expLoc files w

structure ValSpec {α : Type} (files : List Name) (pw pw' : PW) (bytes : List Nat)
    (rd : List Nat → RLoc → List Nat → Rd (α × RLoc)) (v : α) : Prop where
  inv : Inv pw'
  pre : pw.tab <+: pw'.tab
  back : ∀ (T : List Nat), pw'.tab <+: T → T.length < 2 ^ 32 → ∀ (r : RLoc) (rest : List Nat),
    Sync files pw.last r →
      ∃ r', rd T r (bytes ++ rest) = .ok (v, r') rest ∧ Sync files pw'.last r'

theorem packLoc_spec (files : List Name) (hf : ∀ n ∈ files, GoodFile n) (pw : PW) (h : Inv pw)
    (l : WLoc) (hl : GoodLoc files l) :
    ValSpec files pw (packLoc files pw l).2 (packLoc files pw l).1
      (fun T r bs => rbind (unpackLoc T r bs) fun l bs => .ok (l, l) bs) (expLoc files l) := by
  obtain ⟨⟨k, hk, hkl⟩, h1, h2⟩ := hl
  have hfile : locFileStr files l = some (files[k]'hkl) := by
    simp [locFileStr, hk, hkl]
  have gf := hf _ (List.getElem_mem hkl)
  unfold packLoc
  by_cases c : (locInvalid pw.last || l.file ≠ pw.last.file) = true
  · rw [if_pos c]
    simp only [hfile]
    have sp := getString_spec pw (files[k]'hkl) h gf.1
    refine ⟨⟨sp.inv.1, sp.inv.2⟩, sp.pre, ?_⟩
    intro T hT hTl r rest _
    refine ⟨expLoc files l, ?_, fun _ => rfl⟩
    have e := unpackStr_packStr pw (files[k]'hkl) h gf.1 T
      (putUint l.line ++ (putUint l.column ++ rest)) hT hTl
    unfold unpackLoc
    simp only [List.append_assoc]
    rw [e]
    simp only [rbind]
    rw [getUint_putUint _ (by omega)]
    simp only [rbind]
    rw [getUint_putUint _ (by omega)]
    simp only [rbind]
    rw [strip_id _ gf.2, Nat.mod_eq_of_lt h1, Nat.mod_eq_of_lt h2]
    simp [expLoc, hk, hkl]
  · rw [if_neg c]
    have c1 : locInvalid pw.last = false := by
      cases e : locInvalid pw.last
      · rfl
      · simp [e] at c
    have c2 : l.file = pw.last.file := by
      have : ¬ (l.file ≠ pw.last.file) := fun e => c (by simp [e])
      exact Classical.not_not.1 this
    refine ⟨⟨h.1, h.2⟩, List.prefix_refl _, ?_⟩
    intro T hT hTl r rest hs
    have hr := hs c1
    refine ⟨expLoc files l, ?_, fun _ => rfl⟩
    unfold unpackLoc
    simp only [List.append_assoc, List.cons_append, List.nil_append]
    rw [unpackStr_null]
    simp only [rbind]
    rw [getInt_putInt]
    simp only [rbind]
    rw [getInt_putInt]
    simp only [rbind]
    rw [hr]
    simp only [expLoc]
    rw [delta_back _ _ 20 h1 (by omega), delta_back _ _ 12 h2 (by omega), c2]

theorem disp_back (d : BitVec 32) : BitVec.ofNat 32 (d.signExtend 64).toNat = d := by
  have : BitVec.ofNat 32 (d.signExtend 64).toNat = (d.signExtend 64).setWidth 32 := rfl
  rw [this]
  ext i hi
  simp [BitVec.getElem_signExtend, BitVec.getLsbD_signExtend, hi]
  intro h; omega

theorem packValue_spec (files : List Name) (hf : ∀ n ∈ files, GoodFile n) (pw : PW) (h : Inv pw)
    (v : Val WLoc) (hv : GoodVal files v) :
    ValSpec files pw (packValue files pw v).2 (packValue files pw v).1 unpackValue
      (expVal files v) := by
  cases v with
  | invalid | vpos => exact ⟨h, List.prefix_refl _, fun T _ _ r rest hs => ⟨r, rfl, hs⟩⟩
  | reg r' =>
    refine ⟨h, List.prefix_refl _, fun T _ _ r rest hs => ⟨r, ?_, hs⟩⟩
    show rbind (unpackReg (packReg r' ++ rest)) _ = _
    rw [unpackReg_packReg r' hv]; rfl
  | int64 v =>
    refine ⟨h, List.prefix_refl _, fun T _ _ r rest hs => ⟨r, ?_, hs⟩⟩
    show rbind (getInt (putInt v ++ rest)) _ = _
    rw [getInt_putInt]; rfl
  | double v | addrAbs v | addrCpool v | addrCover v =>
    refine ⟨h, List.prefix_refl _, fun T _ _ r rest hs => ⟨r, ?_, hs⟩⟩
    show rbind (getUint (putUint v.toNat ++ rest)) _ = _
    rw [getUint_putUint _ v.isLt]
    simp [rbind, expVal]
  | label v =>
    refine ⟨h, List.prefix_refl _, fun T _ _ r rest hs => ⟨r, ?_, hs⟩⟩
    show rbind (getUint (putUint v.toNat ++ rest)) _ = _
    rw [getUint_putUint _ (by have := v.isLt; omega)]
    simp [rbind, expVal]
  | addrReg r' d =>
    refine ⟨h, List.prefix_refl _, fun T _ _ r rest hs => ⟨r, ?_, hs⟩⟩
    show rbind (unpackReg ((packReg r' ++ putUint (d.signExtend 64).toNat) ++ rest)) _ = _
    rw [List.append_assoc, unpackReg_packReg r' hv]
    simp only [rbind]
    rw [getUint_putUint _ (d.signExtend 64).isLt]
    simp only [rbind, expVal, disp_back]
  | handle n =>
    cases n with
    | none =>
      refine ⟨h, List.prefix_refl _, fun T _ _ r rest hs => ⟨r, ?_, hs⟩⟩
      have e : putUint 0 = [0] := by decide +kernel
      show rbind (unpackStr T (putUint 0 ++ rest)) _ = _
      rw [e]
      show rbind (unpackStr T (0 :: rest)) _ = _
      rw [unpackStr_null]; rfl
    | some n =>
      have sp := getString_spec pw n h hv.2
      refine ⟨sp.inv, sp.pre, fun T hT hl r rest hs => ⟨r, ?_, ?_⟩⟩
      · show rbind (unpackStr T ((packStr pw (some n)).1 ++ rest)) _ = _
        rw [unpackStr_packStr pw n h hv.2 T rest hT hl]
        cases n with
        | nil => exact absurd rfl hv.1
        | cons c n => rfl
      · show Sync files (getString pw (some n)).2.last r
        rw [sp.last]; exact hs
  | exit e =>
    refine ⟨h, List.prefix_refl _, fun T _ _ r rest hs => ⟨r, ?_, hs⟩⟩
    show Rd.ok (Val.exit (e % 256), r) rest = _
    rw [Nat.mod_eq_of_lt hv]; rfl
  | loc l =>
    have sp := packLoc_spec files hf pw h l hv
    refine ⟨sp.inv, sp.pre, fun T hT hl r rest hs => ?_⟩
    obtain ⟨r', e, hs'⟩ := sp.back T hT hl r rest hs
    refine ⟨r', ?_, hs'⟩
    show rbind (unpackLoc T r ((packLoc files pw l).1 ++ rest)) _ = _
    generalize unpackLoc T r ((packLoc files pw l).1 ++ rest) = q at e ⊢
    cases q with
    | ok v bs =>
      simp only [rbind, Rd.ok.injEq, Prod.mk.injEq] at e ⊢
      obtain ⟨⟨rfl, rfl⟩, rfl⟩ := e
      simp [expVal]
    | eof => simp [rbind] at e
    | ub => simp [rbind] at e
  | locus m o =>
    have sp := getString_spec pw m h hv.1.2
    refine ⟨sp.inv, sp.pre, fun T hT hl r rest hs => ⟨r, ?_, ?_⟩⟩
    · show rbind (unpackIdent T (((packStr pw (some m)).1 ++ putUint o) ++ rest)) _ = _
      rw [List.append_assoc, unpackIdent_packStr pw m h hv.1 T _ hT hl]
      simp only [rbind]
      rw [getUint_putUint _ hv.2]
      simp [rbind, expVal]
    · show Sync files (getString pw (some m)).2.last r
      rw [sp.last]; exact hs

/-! ## Instructions -/

/-- All sixteen-bit instruction headers. -/
theorem enc_table : ∀ (op : Fin 256) (size : Fin 8) (target : Fin 2) (cc : Fin 16),
    (((op.1 <<< 8) ||| (size.1 <<< 5) ||| (target.1 <<< 4) ||| cc.1) % 65536) =
      op.1 * 256 + size.1 * 32 + target.1 * 16 + cc.1 := by
  intro op size target cc
  have h1 : (target.1 <<< 4) ||| cc.1 = target.1 * 16 + cc.1 := by
    rw [← Nat.shiftLeft_add_eq_or_of_lt cc.2, Nat.shiftLeft_eq]
  have h2 : (size.1 <<< 5) ||| (target.1 * 16 + cc.1) = size.1 * 32 + (target.1 * 16 + cc.1) := by
    have : target.1 * 16 + cc.1 < 2 ^ 5 := by omega
    rw [← Nat.shiftLeft_add_eq_or_of_lt this, Nat.shiftLeft_eq]
  have h3 : (op.1 <<< 8) ||| (size.1 * 32 + (target.1 * 16 + cc.1)) =
      op.1 * 256 + (size.1 * 32 + (target.1 * 16 + cc.1)) := by
    have : size.1 * 32 + (target.1 * 16 + cc.1) < 2 ^ 8 := by omega
    rw [← Nat.shiftLeft_add_eq_or_of_lt this, Nat.shiftLeft_eq]
  rw [Nat.or_assoc, Nat.or_assoc, h1, h2, h3]
  omega

theorem unpackEnc_packEnc (op size target cc : Nat) (h1 : op < 256) (h2 : size < 8)
    (h3 : target < 2) (h4 : cc < 16) (rest : List Nat) :
    unpackEnc (packEnc op size target cc ++ rest) = .ok (op, size, target, cc) rest := by
  have e := enc_table ⟨op, h1⟩ ⟨size, h2⟩ ⟨target, h3⟩ ⟨cc, h4⟩
  dsimp only at e
  unfold packEnc unpackEnc
  dsimp only
  rw [e]
  generalize hn : op * 256 + size * 32 + target * 16 + cc = n
  have hlo : n &&& 0xff = n % 256 := Nat.and_two_pow_sub_one_eq_mod n 8
  have hhi : n >>> 8 = n / 256 := by simp [Nat.shiftRight_eq_div_pow]
  have hor : (n % 256) ||| ((n / 256) <<< 8) = n := by
    rw [Nat.or_comm, ← Nat.shiftLeft_add_eq_or_of_lt (by omega : n % 256 < 2 ^ 8),
      Nat.shiftLeft_eq]
    exact Nat.div_add_mod' n 256
  simp only [List.cons_append, List.nil_append, hlo, hhi, hor]
  rw [Nat.mod_eq_of_lt (by omega : n < 65536)]
  have f1 : n >>> 8 = op := by rw [hhi]; omega
  have f2 : (n >>> 5) &&& 7 = size := by
    have : (n >>> 5) &&& 7 = (n >>> 5) % 8 := Nat.and_two_pow_sub_one_eq_mod _ 3
    rw [this, Nat.shiftRight_eq_div_pow]; omega
  have f3 : (n >>> 4) &&& 1 = target := by
    have : (n >>> 4) &&& 1 = (n >>> 4) % 2 := Nat.and_two_pow_sub_one_eq_mod _ 1
    rw [this, Nat.shiftRight_eq_div_pow]; omega
  have f4 : n &&& 0xf = cc := by
    have : n &&& 0xf = n % 16 := Nat.and_two_pow_sub_one_eq_mod _ 4
    rw [this]; omega
  rw [f1, f2, f3, f4]

theorem packIr_spec (files : List Name) (hf : ∀ n ∈ files, GoodFile n) (pw : PW) (h : Inv pw)
    (ir : Ir WLoc) (hi : GoodIr files ir) :
    ValSpec files pw (packIr files pw ir).2 (packIr files pw ir).1 unpackIr
      (expIr files ir) := by
  have s1 := packValue_spec files hf pw h ir.arg1 hi.arg1
  have s2 := packValue_spec files hf _ s1.inv ir.arg2 hi.arg2
  refine ⟨s2.inv, s1.pre.trans s2.pre, ?_⟩
  intro T hT hl r rest hs
  obtain ⟨r1, e1, hs1⟩ := s1.back T (s2.pre.trans hT) hl r
    ((packValue files (packValue files pw ir.arg1).2 ir.arg2).1 ++ rest) hs
  obtain ⟨r2, e2, hs2⟩ := s2.back T hT hl r1 rest hs1
  refine ⟨r2, ?_, hs2⟩
  unfold packIr unpackIr
  simp only [List.append_assoc]
  rw [unpackEnc_packEnc _ _ _ _ hi.op hi.size hi.target hi.cc]
  simp only [rbind]
  rw [unpackReg_packReg _ hi.result]
  simp only [rbind]
  rw [e1]
  simp only [rbind]
  rw [e2]
  simp only [rbind, expIr]

theorem packIrs_spec (files : List Name) (hf : ∀ n ∈ files, GoodFile n) (irs : List (Ir WLoc)) :
    ∀ (pw : PW), Inv pw → (∀ ir ∈ irs, GoodIr files ir) →
      Inv (packIrs files pw irs).2 ∧ pw.tab <+: (packIrs files pw irs).2.tab ∧
      ∀ (T : List Nat), (packIrs files pw irs).2.tab <+: T → T.length < 2 ^ 32 →
        ∀ (r : RLoc) (rest : List Nat), Sync files pw.last r →
          unpackIrs T irs.length r ((packIrs files pw irs).1 ++ rest) =
            .ok (irs.map (expIr files)) rest := by
  induction irs with
  | nil => intro pw h _; exact ⟨h, List.prefix_refl _, fun T _ _ r rest _ => rfl⟩
  | cons ir irs ih =>
    intro pw h hg
    have s1 := packIr_spec files hf pw h ir (hg ir (by simp))
    obtain ⟨i2, p2, b2⟩ := ih _ s1.inv (fun x hx => hg x (by simp [hx]))
    refine ⟨i2, s1.pre.trans p2, ?_⟩
    intro T hT hl r rest hs
    obtain ⟨r1, e1, hs1⟩ := s1.back T (p2.trans hT) hl r
      ((packIrs files (packIr files pw ir).2 irs).1 ++ rest) hs
    have e2 := b2 T hT hl r1 rest hs1
    unfold packIrs
    simp only [List.length_cons, unpackIrs, List.append_assoc, List.map_cons]
    rw [e1]
    simp only [rbind]
    rw [e2]

theorem packLinks_spec (ls : List (Name × Nat)) :
    ∀ (pw : PW), Inv pw → (∀ l ∈ ls, GoodName l.1 ∧ l.2 < 2 ^ 32) →
      Inv (packLinks pw ls).2 ∧ pw.tab <+: (packLinks pw ls).2.tab ∧
      (packLinks pw ls).2.last = pw.last ∧
      ∀ (T : List Nat), (packLinks pw ls).2.tab <+: T → T.length < 2 ^ 32 →
        ∀ (rest : List Nat),
          unpackLinks T ls.length ((packLinks pw ls).1 ++ rest) = .ok ls rest := by
  induction ls with
  | nil => intro pw h _; exact ⟨h, List.prefix_refl _, rfl, fun T _ _ rest => rfl⟩
  | cons l ls ih =>
    intro pw h hg
    obtain ⟨g1, g2⟩ := hg l (by simp)
    have s1 := getString_spec pw l.1 h g1.2
    obtain ⟨i2, p2, l2, b2⟩ := ih _ s1.inv (fun x hx => hg x (by simp [hx]))
    refine ⟨i2, s1.pre.trans p2, l2.trans s1.last, ?_⟩
    intro T hT hl rest
    have e2 := b2 T hT hl rest
    unfold packLinks
    simp only [List.length_cons, unpackLinks, List.append_assoc]
    rw [unpackIdent_packStr pw l.1 h g1 T _ (p2.trans hT) hl]
    simp only [rbind]
    rw [getUint_putUint _ (by omega)]
    simp only [rbind]
    have e3 : unpackLinks T ls.length ((packLinks (packStr pw (some l.1)).2 ls).1 ++ rest) =
      .ok ls rest := e2
    rw [e3]
    simp only
    rw [Nat.mod_eq_of_lt g2]

theorem packFunc_spec (files : List Name) (hf : ∀ n ∈ files, GoodFile n) (pw : PW) (h : Inv pw)
    (f : Func WLoc) (hg : GoodFunc files f) :
    Inv (packFunc files pw f).2 ∧ pw.tab <+: (packFunc files pw f).2.tab ∧
      ∀ (T : List Nat), (packFunc files pw f).2.tab <+: T → T.length < 2 ^ 32 →
        unpackFunc T (packFunc files pw f).1 = .ok (expFunc files f) [] := by
  have h0 : Inv { pw with last := wInvalid } := ⟨h.1, h.2⟩
  obtain ⟨i1, p1, l1, b1⟩ := packLinks_spec f.linktab _ h0 hg.links
  have s2 := getString_spec _ f.module i1 hg.module.2
  obtain ⟨i3, p3, b3⟩ := packIrs_spec files hf f.irs _ s2.inv hg.irs
  refine ⟨i3, p1.trans (s2.pre.trans p3), ?_⟩
  intro T hT hl
  have n1 := hg.nregs
  have n2 := hg.cpoolsz
  have n3 := hg.framesz
  have n4 := hg.nvars
  have n5 := hg.nirs
  unfold packFunc unpackFunc
  dsimp only
  rw [getUint_putUint _ (by omega)]
  simp only [rbind]
  rw [getUint_putUint _ (by omega)]
  simp only [rbind]
  rw [getUint_putUint _ (by omega)]
  simp only [rbind]
  rw [getUint_putUint _ (by omega)]
  simp only [rbind]
  rw [getUint_putUint _ f.spec.isLt]
  simp only [rbind]
  rw [getUint_putUint _ (by omega)]
  simp only [rbind]
  rw [Nat.mod_eq_of_lt (by omega : f.linktab.length < 2 ^ 32),
    b1 T (s2.pre.trans (p3.trans hT)) hl]
  simp only [rbind]
  rw [unpackIdent_packStr _ f.module i1 hg.module T _ (p3.trans hT) hl]
  simp only [rbind]
  rw [getUint_putUint _ hg.offset]
  simp only [rbind]
  have hs : Sync files (getString (packLinks { pw with last := wInvalid } f.linktab).2
      (some f.module)).2.last rInvalid := by
    rw [s2.last, l1]
    intro e; simp [locInvalid, wInvalid] at e
  have e3 := b3 T hT hl rInvalid [] hs
  rw [List.append_nil] at e3
  rw [Nat.mod_eq_of_lt (by omega : f.irs.length < 2 ^ 32)]
  have e3' : unpackIrs T f.irs.length rInvalid
    (packIrs files (packStr (packLinks { pw with last := wInvalid } f.linktab).2
      (some f.module)).2 f.irs).1 = .ok (f.irs.map (expIr files)) [] := e3
  rw [e3']
  simp only
  rw [Nat.mod_eq_of_lt n1, Nat.mod_eq_of_lt n2, Nat.mod_eq_of_lt n3]
  simp [expFunc]

theorem packAll_spec (files : List Name) (hf : ∀ n ∈ files, GoodFile n) (fs : List (Func WLoc)) :
    ∀ (pw : PW), Inv pw → (∀ f ∈ fs, GoodFunc files f) →
      pw.tab <+: (packAll files pw fs).2.tab ∧
      ∀ (T : List Nat), (packAll files pw fs).2.tab <+: T → T.length < 2 ^ 32 →
        (packAll files pw fs).1.map (unpackFunc T) =
          fs.map fun f => .ok (expFunc files f) [] := by
  induction fs with
  | nil => intro pw h _; exact ⟨List.prefix_refl _, fun T _ _ => rfl⟩
  | cons f fs ih =>
    intro pw h hg
    obtain ⟨i1, p1, b1⟩ := packFunc_spec files hf pw h f (hg f (by simp))
    obtain ⟨p2, b2⟩ := ih _ i1 (fun x hx => hg x (by simp [hx]))
    refine ⟨p1.trans p2, ?_⟩
    intro T hT hl
    unfold packAll
    simp only [List.map_cons]
    rw [b1 T (p2.trans hT) hl, b2 T hT hl]

/-- **C08.**  Functions packed one after another with the same writer unpack, with the final
string table, to the same functions: number of registers, frame and constant pool size,
link table, object reference and every instruction with all fields.  Missing for the full
claim: locations come back without their extent (the format does not store it) and must
have a file (`pack_counterexample`); registers 65533 and 65534 cannot be read back
(`reg_counterexample`). -/
theorem pack_roundtrip_partial (files : List Name) (hf : ∀ n ∈ files, GoodFile n)
    (fs : List (Func WLoc)) (hg : ∀ f ∈ fs, GoodFunc files f)
    (hl : (packAll files PW.new fs).2.tab.length < 2 ^ 32) :
    (packAll files PW.new fs).1.map (unpackFunc (packAll files PW.new fs).2.tab) =
      fs.map fun f => .ok (expFunc files f) [] :=
  (packAll_spec files hf fs PW.new inv_new hg).2 _ (List.prefix_refl _) hl

/-- A function with two instructions, two locations in one file and a call. -/
def sample : Func WLoc :=
  ⟨2, 0, 0#64, 16, [([118], 8)], [119], 5,
    [⟨3, 3, 0, 0, 1, .loc ⟨some 0, 10, 4, 0, 7⟩, .int64 (-1)⟩,
     ⟨4, 7, 1, 2, 65535, .loc ⟨some 0, 8, 2, 0, 0⟩, .handle (some [102])⟩]⟩

example : (∀ n ∈ ([[97, 47, 98]] : List Name), GoodFile n) ∧
    (∀ f ∈ [sample, sample], GoodFunc [[97, 47, 98]] f) ∧
    (packAll [[97, 47, 98]] PW.new [sample, sample]).2.tab.length < 2 ^ 32 := by
  refine ⟨?_, ?_, by decide +kernel⟩
  · intro n hn
    simp only [List.mem_singleton] at hn
    subst hn
    exact ⟨by decide, by decide⟩
  · have g : GoodFunc [[97, 47, 98]] sample := by
      refine ⟨by decide, by decide, by decide, by decide, ?_, by decide, by decide, by decide, ?_⟩
      · intro l hl
        simp only [sample, List.mem_singleton] at hl
        subst hl; decide
      · intro ir hir
        simp only [sample, List.mem_cons, List.not_mem_nil, or_false] at hir
        rcases hir with rfl | rfl
        · exact ⟨by decide, by decide, by decide, by decide, .inr (by decide),
            ⟨⟨0, rfl, by decide⟩, by decide, by decide⟩, trivial⟩
        · exact ⟨by decide, by decide, by decide, by decide, .inl rfl,
            ⟨⟨0, rfl, by decide⟩, by decide, by decide⟩,
            (by decide : GoodName [102])⟩
    intro f hf
    simp only [List.mem_cons, List.not_mem_nil, or_false, or_self] at hf
    subst hf; exact g

/-- **C08, against.**  An invalid location after a location in some file is read back as a
location in that file. -/
theorem pack_counterexample : ∃ (files : List Name) (pw : PW),
    Inv pw ∧ locInvalid wInvalid = true ∧ Sync files pw.last (expLoc files pw.last) ∧
    unpackLoc (packLoc files pw wInvalid).2.tab (expLoc files pw.last)
      (packLoc files pw wInvalid).1 = .ok ⟨some [97], 524298, 2052, 0, 0⟩ [] := by
  refine ⟨[[97]], (packLoc [[97]] PW.new ⟨some 0, 10, 4, 0, 0⟩).2, ?_, rfl, fun _ => rfl,
    by decide +kernel⟩
  exact (packLoc_spec [[97]] (by intro n hn; simp at hn; subst hn; exact ⟨by decide, by decide⟩)
    PW.new inv_new _ ⟨⟨0, rfl, by decide⟩, by decide, by decide⟩).inv

/-- **C08, against.**  The register number 65533, which is not `JIT_REG_INVALID`, is written but
fails the assertion of the reader. -/
theorem reg_counterexample : unpackReg (packReg 65533) = .ub := by decide +kernel

end Verif.Jit

import Verif.StdEnv.Spec

/-
Model of the functions of STD.ENV about dates and times, src/rt/stdenv.c and
lib/std.19/env-body.vhd.

Simplifications: a value of type REAL is an exact fraction `d / q` with
`q > 0`; rounding of floating point operations is left out.  `time_t` and
the fields of a record are unbounded integers, but the `int` arithmetic of
`to_time_t` and the conversions to `int` are modelled, with `none` when they
overflow (undefined) or when an assertion fails.  `gmtime_r` and
`localtime_r` belong to the C library: they are parameters, and the theorems
say what they assume about them.  The variants for Windows are left out.
-/

namespace Verif.StdEnv

/-- `struct tm` of the C library: years since 1900. -/
structure Tm where
  sec : Int
  min : Int
  hour : Int
  mday : Int
  mon : Int
  year : Int
  wday : Int
  yday : Int
  deriving DecidableEq

/-- `time_record_t`, src/rt/stdenv.c:48-58, and TIME_RECORD,
lib/std.19/env.vhdl:61-71. -/
structure TimeRecord where
  microsecond : Int
  second : Int
  minute : Int
  hour : Int
  day : Int
  month : Int
  year : Int
  weekday : Int
  dayofyear : Int
  deriving DecidableEq

/-- The value fits in an `int`. -/
def fitsInt (x : Int) : Bool := decide (-2147483648 ≤ x) && decide (x ≤ 2147483647)

/-- The value fits in an `int64_t`. -/
def fitsInt64 (x : Int) : Bool :=
  decide (-9223372036854775808 ≤ x) && decide (x ≤ 9223372036854775807)

/-- `to_time_record`, src/rt/stdenv.c:182-195: `none` when an assertion
fails. -/
def toTimeRecord (tm : Tm) (us : Int) : Option TimeRecord :=
  if 0 ≤ us ∧ us < 1000000 then
    some { microsecond := us, second := tm.sec, minute := tm.min, hour := tm.hour,
           day := tm.mday, month := tm.mon, year := 1900 + tm.year,
           weekday := tm.wday, dayofyear := tm.yday }
  else none

/-- `to_time_t`, src/rt/stdenv.c:198-204: `none` when an operation on `int`
overflows. -/
def toTimeT (tr : TimeRecord) : Option Int :=
  let adj := tr.year - 1900
  let a := (adj - 70) * 31536000
  let b := Int.tdiv (adj - 69) 4 * 86400
  let c := Int.tdiv (adj - 1) 100 * 86400
  let d := Int.tdiv (adj + 299) 400 * 86400
  if fitsInt a && fitsInt b && fitsInt c && fitsInt d then
    some (tr.second + tr.minute * 60 + tr.hour * 3600 + tr.dayofyear * 86400
      + a + b - c + d)
  else none

/-- A floating point number: infinite or a fraction. -/
inductive Flt where
  | inf
  | frac (num den : Nat)
  deriving DecidableEq

/-- `_std_env_epoch`, src/rt/stdenv.c:255-264, of the value of
`get_real_time`: `nanos / 10^9 + 1.0e9 / (nanos % 10^9)`. -/
def epoch (nanos : Nat) : Flt :=
  let whole := nanos / 1000000000
  let r := nanos % 1000000000
  if r = 0 then Flt.inf else Flt.frac (whole * r + 1000000000) r

/-- `_std_env_epoch_trec`, src/rt/stdenv.c:267-271: whole seconds and
microseconds, which are added. -/
def epochTrec (tr : TimeRecord) : Option (Int × Int) :=
  match toTimeT tr with
  | none => none
  | some s => some (s, tr.microsecond)

/-- `_std_env_localtime`, src/rt/stdenv.c:274-283, of `d / q` seconds. -/
def localtimeReal (lt : Int → Tm) (d : Int) (q : Nat) : Option TimeRecord :=
  toTimeRecord (lt (d / q)) (1000000 * (d % q) / q)

/-- `_std_env_localtime_trec`, src/rt/stdenv.c:286-294. -/
def localtimeTrec (lt : Int → Tm) (tr : TimeRecord) : Option TimeRecord :=
  match toTimeT tr with
  | none => none
  | some s => toTimeRecord (lt s) tr.microsecond

/-- `_std_env_gmtime`, src/rt/stdenv.c:297-306: the seconds are converted to
`int`. -/
def gmtimeReal (gm : Int → Tm) (d : Int) (q : Nat) : Option TimeRecord :=
  if fitsInt (d / q) then
    toTimeRecord (gm (d / q)) (1000000 * (d % q) / q)
  else none

/-- `_std_env_gmtime_trec`, src/rt/stdenv.c:309-336: `off` is `tm_gmtoff` of
`localtime_r`. -/
def gmtimeTrec (gm : Int → Tm) (off : Int → Int) (tr : TimeRecord) : Option TimeRecord :=
  match toTimeT tr with
  | none => none
  | some s => toTimeRecord (gm (s - off s)) tr.microsecond

/-- `_std_env_add_trec_real`, src/rt/stdenv.c:339-361, with `delta = d / q`. -/
def addTrec (gm : Int → Tm) (tr : TimeRecord) (d : Int) (q : Nat) : Option TimeRecord :=
  let micro := Int.tdiv (Int.tmod d q * 1000000) q
  let secs := Int.tdiv d q
  match toTimeT tr with
  | none => none
  | some t =>
    let newsecs := t + secs
    let newmicro := tr.microsecond + micro
    if newmicro ≥ 1000000 then
      toTimeRecord (gm (newsecs + 1)) (Int.tmod newmicro 1000000)
    else if newmicro < 0 then
      toTimeRecord (gm (newsecs - 1)) (1000000 + Int.tmod newmicro 100000)
    else
      toTimeRecord (gm newsecs) newmicro

/-- "-" of a record and a number, lib/std.19/env-body.vhd:159-162. -/
def subTrec (gm : Int → Tm) (tr : TimeRecord) (d : Int) (q : Nat) : Option TimeRecord :=
  addTrec gm tr (-d) q

/-- `_std_env_diff_trec`, src/rt/stdenv.c:364-370: seconds and microseconds,
which are added. -/
def diffTrec (a b : TimeRecord) : Option (Int × Int) :=
  match toTimeT a, toTimeT b with
  | some s, some t => some (s - t, a.microsecond - b.microsecond)
  | _, _ => none

/-- TIME_TO_SECONDS, lib/std.19/env-body.vhd:178-185: the two integers of
which it returns `whole + frac / 10^15`. -/
def timeToSeconds (t : Int) : Int × Int :=
  (Int.tdiv t 1000000000000000, Int.fmod t 1000000000000000)

/-- The value of an unsigned 64-bit number converted to `int64_t`. -/
def wrap64 (x : Int) : Int :=
  let r := x % 18446744073709551616
  if r ≥ 9223372036854775808 then r - 18446744073709551616 else r

/-- `_std_env_seconds_to_time`, src/rt/stdenv.c:658-662: `none` if the
conversion of the whole part overflows; the sum is of unsigned numbers. -/
def secondsToTime (d : Int) (q : Nat) : Option Int :=
  let whole := Int.tdiv d q
  let frac := Int.tdiv (Int.tmod d q * 1000000000000000) q
  if fitsInt64 whole then some (wrap64 (whole * 1000000000000000 + frac)) else none

/-- TO_STRING of an integer from 0 to 9. -/
def digitChar (n : Nat) : Char := Char.ofNat (48 + n)

/-- The loop of `zero_pad`, lib/std.19/env-body.vhd:198-207, from the last
digit to the first; the value is not negative. -/
def zeroPad (value : Nat) : Nat → List Char
  | 0 => []
  | w + 1 => zeroPad (value / 10) w ++ [digitChar (value % 10)]

/-- The buffer of TO_STRING, lib/std.19/env-body.vhd:209-221. -/
def isoBuf (tr : TimeRecord) : List Char :=
  zeroPad tr.year.toNat 4 ++ '-' :: (zeroPad tr.month.toNat 2 ++ '-' ::
    (zeroPad tr.day.toNat 2 ++ 'T' :: (zeroPad tr.hour.toNat 2 ++ ':' ::
      (zeroPad tr.minute.toNat 2 ++ ':' :: zeroPad tr.second.toNat 2))))

/-- TO_STRING of a record, lib/std.19/env-body.vhd:194-229. -/
def toText (tr : TimeRecord) (frac : Nat) : List Char :=
  if frac > 0 then
    (isoBuf tr ++ '.' :: zeroPad tr.microsecond.toNat 6).take (20 + frac)
  else isoBuf tr

/-! ## File names -/

/-- `find_dir_separator`, src/rt/stdenv.c:160-168, which is `strrchr`: what
is before and after the last separator. -/
def splitLast : List Char → Option (List Char × List Char)
  | [] => none
  | c :: l =>
    match splitLast l with
    | some (a, b) => some (c :: a, b)
    | none => if c = '/' then some ([], l) else none

/-- `_std_env_file_name`, src/rt/stdenv.c:621-629. -/
def fileName (path : List Char) : List Char :=
  match splitLast path with
  | some (_, b) => b
  | none => path

/-- `is_absolute_path`, src/util.c:2178-2189. -/
def isAbsolute : List Char → Bool
  | '/' :: _ => true
  | _ => false

/-- `to_absolute_path`, src/rt/stdenv.c:170-180: `real` is `realpath`. -/
def toAbsolute (real : List Char → Option (List Char)) (p : List Char) : List Char :=
  if isAbsolute p then p
  else match real p with
    | some r => r
    | none => p

/-- `_std_env_file_path`, src/rt/stdenv.c:632-646, and the same in
`_std_env_get_call_path`, 598-612. -/
def filePath (real : List Char → Option (List Char)) (path : List Char) : List Char :=
  match splitLast path with
  | none => toAbsolute real ['.']
  | some (a, _) => toAbsolute real a

end Verif.StdEnv

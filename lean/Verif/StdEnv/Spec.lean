/-
Property C95: what the date and time functions of STD.ENV mean, by the
comments of the package (lib/std.19/env.vhdl:55-118) and the Gregorian
calendar.  Nothing here refers to the model.
-/

namespace Verif.StdEnv.Spec

/-- Leap years of the Gregorian calendar. -/
def leap (y : Nat) : Bool := y % 4 == 0 && (y % 100 != 0 || y % 400 == 0)

def yearLen (y : Nat) : Nat := if leap y then 366 else 365

/-- The number of days before the first of January of a year, from year 0. -/
def daysBefore : Nat → Nat
  | 0 => 0
  | y + 1 => daysBefore y + yearLen y

/-- Month 0 is January (env.vhdl:58). -/
def monthLen (y : Nat) : Nat → Nat
  | 0 => 31
  | 1 => if leap y then 29 else 28
  | 2 => 31
  | 3 => 30
  | 4 => 31
  | 5 => 30
  | 6 => 31
  | 7 => 31
  | 8 => 30
  | 9 => 31
  | 10 => 30
  | _ => 31

def daysBeforeMonth (y : Nat) : Nat → Nat
  | 0 => 0
  | m + 1 => daysBeforeMonth y m + monthLen y m

/-- Days since the first of January 1970. -/
def dayNumber (y yday : Nat) : Int := (daysBefore y : Int) - (daysBefore 1970 : Int) + yday

/-- The moment `s` seconds after the start of 1970 is this date and time of
day.  The first of January 1970 was a Thursday, and Sunday has number 0. -/
def Denotes (sec min hour day mon year wday yday : Int) (s : Int) : Prop :=
  ∃ y m d : Nat, year = y ∧ mon = m ∧ yday = d ∧
    (0 ≤ sec ∧ sec < 60) ∧ (0 ≤ min ∧ min < 60) ∧ (0 ≤ hour ∧ hour < 24) ∧
    m < 12 ∧ d < yearLen y ∧
    (1 ≤ day ∧ day ≤ monthLen y m) ∧
    (d : Int) + 1 = daysBeforeMonth y m + day ∧
    wday = (dayNumber y d + 4) % 7 ∧
    s = dayNumber y d * 86400 + hour * 3600 + min * 60 + sec

/-- The seconds of a date and time of day, in whatever year. -/
def secondsAt (y : Nat) (yday hour min sec : Int) : Int :=
  ((daysBefore y : Int) - (daysBefore 1970 : Int) + yday) * 86400
    + hour * 3600 + min * 60 + sec

/-- `num / den` seconds are `nanos` nanoseconds. -/
def IsSeconds (num den nanos : Nat) : Prop := num * 1000000000 = nanos * den

/-! ## Text -/

def IsDigit (c : Char) : Prop := 48 ≤ c.toNat ∧ c.toNat ≤ 57

def digitsValue (l : List Char) : Nat := l.foldl (fun a c => a * 10 + (c.toNat - 48)) 0

/-- A number written with exactly `w` digits. -/
def Num (l : List Char) (w : Nat) (n : Int) : Prop :=
  l.length = w ∧ (∀ c ∈ l, IsDigit c) ∧ (digitsValue l : Int) = n

/-- ISO 8601 (env.vhdl:113-115): `month` here counts from 1. -/
def IsIso (l : List Char) (year month day hour min sec us : Int) (frac : Nat) : Prop :=
  ∃ ly lm ld lh li ls lf : List Char,
    Num ly 4 year ∧ Num lm 2 month ∧ Num ld 2 day ∧
    Num lh 2 hour ∧ Num li 2 min ∧ Num ls 2 sec ∧
    ((frac = 0 ∧ lf = []) ∨
     (0 < frac ∧ ∃ l6 rest : List Char, Num l6 6 us ∧ l6 = (lf.drop 1) ++ rest ∧
        lf = '.' :: lf.drop 1 ∧ (lf.drop 1).length = frac)) ∧
    l = ly ++ '-' :: (lm ++ '-' :: (ld ++ 'T' :: (lh ++ ':' :: (li ++ ':' :: (ls ++ lf)))))

/-! ## File names -/

/-- A path is a directory and a name without separators. -/
def Splits (path dir name : List Char) : Prop :=
  path = dir ++ '/' :: name ∧ '/' ∉ name

end Verif.StdEnv.Spec

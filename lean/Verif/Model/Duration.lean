/-!
# Model of `time/duration.go`

Durations are signed 64-bit numbers of nanoseconds.  `time.Duration.String` of the Go library, which the code calls, is
written out as well (`std`; Go 1.10 and later).
-/

namespace Verif.Duration

/-- `Day`, duration.go:21 (24 hours in nanoseconds). -/
def day : BitVec 64 := 86400000000000#64

/-- `%d` of a non-negative number; `fmtInt` of the Go library.
duration.go:59 and the library behind duration.go:55. -/
def decimal (n : Nat) : List Char := Nat.toDigits 10 n

/-- Exactly `k` decimal digits.  Part of the library behind duration.go:55. -/
def padded : Nat → Nat → List Char
  | 0, _ => []
  | k + 1, n => padded k (n / 10) ++ [Nat.digitChar (n % 10)]

/-- `fmtFrac` of the Go library: the fraction without trailing zeros; no point when it is zero.
Behind duration.go:55. -/
def frac (v prec : Nat) : List Char :=
  let digits := ((padded prec v).reverse.dropWhile (· == '0')).reverse
  if digits = [] then [] else '.' :: digits

/-- `v / 10^prec` with its fraction.  Part of the library behind duration.go:55. -/
def number (v prec : Nat) : List Char := decimal (v / 10 ^ prec) ++ frac (v % 10 ^ prec) prec

/-- `time.Duration.String` of the Go library for the absolute value `u`.  Behind duration.go:55 and 59. -/
def stdAbs (u : Nat) : List Char :=
  if u < 10 ^ 9 then
    if u = 0 then ['0', 's']
    else if u < 10 ^ 3 then number u 0 ++ ['n', 's']
    else if u < 10 ^ 6 then number u 3 ++ ['µ', 's']
    else number u 6 ++ ['m', 's']
  else
    let fraction := frac (u % 10 ^ 9) 9
    let s := u / 10 ^ 9
    let secs := decimal (s % 60) ++ fraction ++ ['s']
    let m := s / 60
    if m > 0 then
      let mins := decimal (m % 60) ++ ['m']
      let h := m / 60
      if h > 0 then decimal h ++ ['h'] ++ mins ++ secs else mins ++ secs
    else secs

/-- `time.Duration.String` of the Go library.  Called at duration.go:55 and 59. -/
def std (d : BitVec 64) : List Char :=
  if d.slt 0 then '-' :: stdAbs (-d).toNat else stdAbs d.toNat

/-- `String`, duration.go:53-62. -/
def string (d : BitVec 64) : List Char :=
  if d.slt day then std d
  else
    let days := (d.sdiv day).toNat
    let left := d.srem day
    decimal days ++ ['d'] ++ std left

end Verif.Duration

import Verif.Model.Main

/-!
# Files as bytes (`kocheck/src/process.rs` L44-50)

`Model/Files` speaks about files that are texts.  Here files are sequences of bytes whose reading may fail: `BufRead::lines` yields an error
for a line that is not UTF-8, or when the operating system refuses to read (as for a directory, which can be opened but not read), and
`line.unwrap()` turns it into a panic.
-/

namespace Kontroli

/-- What reading a file yields: some bytes, and then the end of the file or an I/O error. -/
structure Raw where
  bytes : List UInt8
  broken : Bool

/-- `std::str::from_utf8`; the decoder of Lean's core library accepts exactly the encodings of texts (`fromUtf8_iff`). -/
def fromUtf8 (bs : List UInt8) : Option Str := (ByteArray.utf8Decode? ⟨bs.toArray⟩).map Array.toList

/-- the end of a line is cut off by `BufRead::lines` -/
def chomp (s : Str) : Str :=
  if s.getLast? = some '\n' then (if s.dropLast.getLast? = some '\r' then s.dropLast.dropLast else s.dropLast) else s

/-- `BufReader::new(r).lines()` (`kocheck/src/process.rs` L46); `none` is an error.  The first argument is the part of a line that has been
read, which is lost if there is an I/O error. -/
def rawLines (broken : Bool) : List UInt8 → List UInt8 → List (Option Str)
  | acc, [] => if broken then [none] else if acc.isEmpty then [] else [(fromUtf8 acc).map chomp]
  | acc, b :: bs =>
    if b = 10 then (fromUtf8 (acc ++ [b])).map chomp :: rawLines broken [] bs else rawLines broken (acc ++ [b]) bs

/-- the lines of a file -/
def Raw.lines (r : Raw) : List (Option Str) := rawLines r.broken [] r.bytes

/-- a file from which nothing is read -/
def Raw.empty : Raw := ⟨[], false⟩

section
variable {A : Type}

/-- `Lazy` (`dedukti-parse/src/lib.rs` L131-138) over `.lines().map(|line| line.unwrap())` (`kocheck/src/process.rs` L46-47) -/
structure LazyR (A : Type) where
  lines : List (Option Str)
  openComments : Nat
  state : PState A
  ctx : PCtx A
  buf : List (PCmd (PTerm A))

/-- `Lazy::new` (`dedukti-parse/src/lib.rs` L152-161). -/
def LazyR.new (lines : List (Option Str)) : LazyR A := ⟨lines, 0, PState.new, PCtx.new, []⟩

/-- The loop over the lines in `Lazy::next` (`dedukti-parse/src/lib.rs` L267-303), and what follows it; `line.unwrap()`
(`kocheck/src/process.rs` L46) panics on an error. -/
def lazyLinesR (sc : ScopeFn A) : List (Option Str) → Nat → PState A → PCtx A → List (PCmd (PTerm A)) →
    Option (POut ParseError (PCmd (PTerm A))) × LazyR A
  | [], opened, st, ctx, buf =>
    (match st.cmd with
      | .init => if opened > 0 then some (.err .expectedInput) else none
      | _ => some (.err .expectedInput), ⟨[], opened, st, ctx, buf⟩)
  | none :: lines, opened, st, ctx, buf => (some .panic, ⟨lines, opened, st, ctx, buf⟩)
  | some line :: lines, opened, st, ctx, buf =>
    match comment opened line with
    | (o + 1, _) => lazyLinesR sc lines (o + 1) st ctx buf
    | (0, rest) =>
      match lazyLine sc ((lex rest).length + 1) st ctx buf 0 (lex rest) with
      | (.err e, ctx, buf, o) => (some (.err e), ⟨lines, o, PState.new, ctx, buf⟩)
      | (.panic, ctx, buf, o) => (some .panic, ⟨lines, o, PState.new, ctx, buf⟩)
      | (.ok st, ctx, buf, o) =>
        match buf with
        | [] => lazyLinesR sc lines o st ctx []
        | c :: cs => (some (.ok c), ⟨lines, o, st, ctx, cs.reverse⟩)

/-- `Lazy::next` (`dedukti-parse/src/lib.rs` L262-310). -/
def LazyR.next (sc : ScopeFn A) (p : LazyR A) : Option (POut ParseError (PCmd (PTerm A))) × LazyR A :=
  match p.buf.getLast? with
  | some c => (some (.ok c), { p with buf := p.buf.dropLast })
  | none => lazyLinesR sc p.lines p.openComments p.state p.ctx p.buf

/-- The first `n` items of a lazy parser (fewer if it answers `None`); nothing matters after a panic. -/
def LazyR.items (sc : ScopeFn A) : Nat → LazyR A → List (POut ParseError (PCmd (PTerm A)))
  | 0, _ => []
  | n + 1, p => match p.next sc with
    | (none, _) => []
    | (some i, p) => i :: LazyR.items sc n p

end

/-- the number of characters, or of bytes if the file is not a text -/
def Raw.size (r : Raw) : Nat :=
  if r.broken then r.bytes.length
  else match fromUtf8 r.bytes with
    | some t => t.length
    | none => r.bytes.length

/-- `parse` (`kocheck/src/process.rs` L44-50): the stream of a file.  As in `parseText`, so many items are kept that the first failure is
among them. -/
def parseRaw (r : Raw) : List (Out Scoped) :=
  ((LazyR.new r.lines).items scopeAtom (r.size + 3)).map fun i => match i with
    | .ok c => .ok c
    | .err _ => .err .parse
    | .panic => .panic

/-- `PathRead::try_from` (`kocheck/src/path_read.rs` L22-34) for a list of files, and their parsing; `none` is a file that cannot be opened. -/
def openRaw (fs : Str → Option Raw) : Raw → List Str → List (Out ParsedFile)
  | _, [] => []
  | stdin, p :: ps =>
    match modulePath p with
    | none => .err .module :: openRaw fs stdin ps
    | some path =>
      if isDash p then .ok ⟨path, parseRaw stdin⟩ :: openRaw fs Raw.empty ps
      else match fs p with
        | none => .err .io :: openRaw fs stdin ps
        | some r => .ok ⟨path, parseRaw r⟩ :: openRaw fs stdin ps

/-- `main` (`kocheck/src/main.rs` L11-48) -/
def MainRaw (k : Kern) (opt : Opt) (channel : Option (Option Nat)) (fs : Str → Option Raw) (stdin : Raw) (paths : List Str)
    (res : Out Unit) : Prop :=
  match channel with
  | none => ∃ gc, Run k opt (openRaw fs stdin paths) gc res
  | some capacity => Channel k opt capacity (openRaw fs stdin paths) res

end Kontroli

import Verif.Conform.Parser

set_option autoImplicit false

/-! # The test of the whole library, run on the model — src/test.rs

As in `Conform/Parser.lean`, this is a test: the grammar of a small programming language, a program, and the events that the repository
expects, evaluated by the kernel. -/

namespace Ebnf.Conform

/-- `special_sequence_scanner` — src/test.rs:355-365.  `char::is_whitespace` is written out for the characters below 128. -/
def programConfig : Config := fun _ label =>
  if label = " white space characters ".toList then charsWithOneOrMore fun c => c = ' ' || c.toNat < 32 || c.toNat = 127
  else charsWithOneOf fun c => !(c.toNat < 32 || c.toNat = 127)

/-- The grammar of src/test.rs:48-64, character by character, which saves the kernel the decoding. -/
def program : Str :=
  ['(', '*', ' ', 'a', ' ', 's', 'i', 'm', 'p', 'l', 'e', ' ', 'p', 'r', 'o', 'g', 'r', 'a', 'm', ' ', 's', 'y', 'n', 't',
   'a', 'x', ' ', 'i', 'n', ' ', 'E', 'B', 'N', 'F', ' ', '-', ' ', 'W', 'i', 'k', 'i', 'p', 'e', 'd', 'i', 'a', ' ', '*',
   ')', '\n',
   'p', 'r', 'o', 'g', 'r', 'a', 'm', ' ', '=', ' ', '\'', 'P', 'R', 'O', 'G', 'R', 'A', 'M', '\'', ',', ' ', 'w', 'h', 'i',
   't', 'e', ' ', 's', 'p', 'a', 'c', 'e', ',', ' ', 'i', 'd', 'e', 'n', 't', 'i', 'f', 'i', 'e', 'r', ',', ' ', 'w', 'h',
   'i', 't', 'e', ' ', 's', 'p', 'a', 'c', 'e', ',', '\n',
   ' ', ' ', '\'', 'B', 'E', 'G', 'I', 'N', '\'', ',', ' ', 'w', 'h', 'i', 't', 'e', ' ', 's', 'p', 'a', 'c', 'e', ',', '\n',
   ' ', ' ', '{', ' ', 'a', 's', 's', 'i', 'g', 'n', 'm', 'e', 'n', 't', ',', ' ', '"', ';', '"', ',', ' ', 'w', 'h', 'i',
   't', 'e', ' ', 's', 'p', 'a', 'c', 'e', ' ', '}', ',', '\n',
   ' ', ' ', '\'', 'E', 'N', 'D', '.', '\'', ' ', ';', '\n',
   'i', 'd', 'e', 'n', 't', 'i', 'f', 'i', 'e', 'r', ' ', '=', ' ', 'a', 'l', 'p', 'h', 'a', 'b', 'e', 't', 'i', 'c', ' ',
   'c', 'h', 'a', 'r', 'a', 'c', 't', 'e', 'r', ',', ' ', '{', ' ', 'a', 'l', 'p', 'h', 'a', 'b', 'e', 't', 'i', 'c', ' ',
   'c', 'h', 'a', 'r', 'a', 'c', 't', 'e', 'r', ' ', '|', ' ', 'd', 'i', 'g', 'i', 't', ' ', '}', ' ', ';', '\n',
   'n', 'u', 'm', 'b', 'e', 'r', ' ', '=', ' ', '[', ' ', '"', '-', '"', ' ', ']', ',', ' ', 'd', 'i', 'g', 'i', 't', ',',
   ' ', '{', ' ', 'd', 'i', 'g', 'i', 't', ' ', '}', ' ', ';', '\n',
   's', 't', 'r', 'i', 'n', 'g', ' ', '=', ' ', '\'', '"', '\'', ' ', ',', ' ', '{', ' ', 'a', 'l', 'l', ' ', 'c', 'h', 'a',
   'r', 'a', 'c', 't', 'e', 'r', 's', ' ', '-', ' ', '\'', '"', '\'', ' ', '}', ',', ' ', '\'', '"', '\'', ' ', ';', '\n',
   'a', 's', 's', 'i', 'g', 'n', 'm', 'e', 'n', 't', ' ', '=', ' ', 'i', 'd', 'e', 'n', 't', 'i', 'f', 'i', 'e', 'r', ' ',
   ',', ' ', '"', ':', '=', '"', ' ', ',', ' ', '(', ' ', 'n', 'u', 'm', 'b', 'e', 'r', ' ', '|', ' ', 'i', 'd', 'e', 'n',
   't', 'i', 'f', 'i', 'e', 'r', ' ', '|', ' ', 's', 't', 'r', 'i', 'n', 'g', ' ', ')', ' ', ';', '\n',
   'a', 'l', 'p', 'h', 'a', 'b', 'e', 't', 'i', 'c', ' ', 'c', 'h', 'a', 'r', 'a', 'c', 't', 'e', 'r', ' ', '=', ' ', '"',
   'A', '"', ' ', '|', ' ', '"', 'B', '"', ' ', '|', ' ', '"', 'C', '"', ' ', '|', ' ', '"', 'D', '"', ' ', '|', ' ', '"',
   'E', '"', ' ', '|', ' ', '"', 'F', '"', ' ', '|', ' ', '"', 'G', '"', '\n',
   ' ', ' ', ' ', ' ', ' ', ' ', ' ', ' ', ' ', ' ', ' ', ' ', '|', ' ', '"', 'H', '"', ' ', '|', ' ', '"', 'I', '"', ' ',
   '|', ' ', '"', 'J', '"', ' ', '|', ' ', '"', 'K', '"', ' ', '|', ' ', '"', 'L', '"', ' ', '|', ' ', '"', 'M', '"', ' ',
   '|', ' ', '"', 'N', '"', '\n',
   ' ', ' ', ' ', ' ', ' ', ' ', ' ', ' ', ' ', ' ', ' ', ' ', '|', ' ', '"', 'O', '"', ' ', '|', ' ', '"', 'P', '"', ' ',
   '|', ' ', '"', 'Q', '"', ' ', '|', ' ', '"', 'R', '"', ' ', '|', ' ', '"', 'S', '"', ' ', '|', ' ', '"', 'T', '"', ' ',
   '|', ' ', '"', 'U', '"', '\n',
   ' ', ' ', ' ', ' ', ' ', ' ', ' ', ' ', ' ', ' ', ' ', ' ', '|', ' ', '"', 'V', '"', ' ', '|', ' ', '"', 'W', '"', ' ',
   '|', ' ', '"', 'X', '"', ' ', '|', ' ', '"', 'Y', '"', ' ', '|', ' ', '"', 'Z', '"', ' ', ';', '\n',
   'd', 'i', 'g', 'i', 't', ' ', '=', ' ', '"', '0', '"', ' ', '|', ' ', '"', '1', '"', ' ', '|', ' ', '"', '2', '"', ' ',
   '|', ' ', '"', '3', '"', ' ', '|', ' ', '"', '4', '"', ' ', '|', ' ', '"', '5', '"', ' ', '|', ' ', '"', '6', '"', ' ',
   '|', ' ', '"', '7', '"', ' ', '|', ' ', '"', '8', '"', ' ', '|', ' ', '"', '9', '"', ' ', ';', '\n',
   'w', 'h', 'i', 't', 'e', ' ', 's', 'p', 'a', 'c', 'e', ' ', '=', ' ', '?', ' ', 'w', 'h', 'i', 't', 'e', ' ', 's', 'p',
   'a', 'c', 'e', ' ', 'c', 'h', 'a', 'r', 'a', 'c', 't', 'e', 'r', 's', ' ', '?', ' ', ';', '\n',
   'a', 'l', 'l', ' ', 'c', 'h', 'a', 'r', 'a', 'c', 't', 'e', 'r', 's', ' ', '=', ' ', '?', ' ', 'a', 'l', 'l', ' ', 'v',
   'i', 's', 'i', 'b', 'l', 'e', ' ', 'c', 'h', 'a', 'r', 'a', 'c', 't', 'e', 'r', 's', ' ', '?', ' ', ';']

/-- The text of src/test.rs:74-84, without the lines 4 to 8, which would take the kernel minutes. -/
def demo : Str :=
  ['P', 'R', 'O', 'G', 'R', 'A', 'M', ' ', 'D', 'E', 'M', 'O', '1', '\n',
   'B', 'E', 'G', 'I', 'N', '\n',
   ' ', ' ', 'A', ':', '=', '3', ';', '\n',
   ' ', ' ', 'T', 'E', 'X', 'T', ':', '=', '"', 'H', 'e', 'l', 'l', 'o', ' ', 'w', 'o', 'r', 'l', 'd', '!', '"', ';', '\n',
   'E', 'N', 'D', '.']

/-- The events of src/test.rs:87-352, without those on these lines. -/
def demoEvents : List Event :=
  [began (dl 2 1) (sl 1 1) "program",
   token (dl 2 11) (sl 1 1) "PROGRAM",
   began (dl 2 22) (sl 1 8) "white space",
   token (dl 15 15) (sl 1 8) " ",
   ended (dl 2 22) (sl 1 9) "white space",
   began (dl 2 35) (sl 1 9) "identifier",
   began (dl 6 14) (sl 1 9) "alphabetic character",
   token (dl 10 42) (sl 1 9) "D",
   ended (dl 6 14) (sl 1 10) "alphabetic character",
   began (dl 6 38) (sl 1 10) "alphabetic character",
   token (dl 10 48) (sl 1 10) "E",
   ended (dl 6 38) (sl 1 11) "alphabetic character",
   began (dl 6 38) (sl 1 11) "alphabetic character",
   token (dl 11 45) (sl 1 11) "M",
   ended (dl 6 38) (sl 1 12) "alphabetic character",
   began (dl 6 38) (sl 1 12) "alphabetic character",
   token (dl 12 15) (sl 1 12) "O",
   ended (dl 6 38) (sl 1 13) "alphabetic character",
   began (dl 6 61) (sl 1 13) "digit",
   token (dl 14 15) (sl 1 13) "1",
   ended (dl 6 61) (sl 1 14) "digit",
   ended (dl 2 35) (sl 1 14) "identifier",
   began (dl 2 47) (sl 1 14) "white space",
   token (dl 15 15) (sl 1 14) "\n",
   ended (dl 2 47) (sl 2 1) "white space",
   token (dl 3 3) (sl 2 1) "BEGIN",
   began (dl 3 12) (sl 2 6) "white space",
   token (dl 15 15) (sl 2 6) "\n  ",
   ended (dl 3 12) (sl 3 3) "white space",
   began (dl 4 5) (sl 3 3) "assignment",
   began (dl 9 14) (sl 3 3) "identifier",
   began (dl 6 14) (sl 3 3) "alphabetic character",
   token (dl 10 24) (sl 3 3) "A",
   ended (dl 6 14) (sl 3 4) "alphabetic character",
   ended (dl 9 14) (sl 3 4) "identifier",
   token (dl 9 27) (sl 3 4) ":=",
   began (dl 9 36) (sl 3 6) "number",
   began (dl 7 19) (sl 3 6) "digit",
   token (dl 14 27) (sl 3 6) "3",
   ended (dl 7 19) (sl 3 7) "digit",
   ended (dl 9 36) (sl 3 7) "number",
   ended (dl 4 5) (sl 3 7) "assignment",
   token (dl 4 17) (sl 3 7) ";",
   began (dl 4 22) (sl 3 8) "white space",
   token (dl 15 15) (sl 3 8) "\n  ",
   ended (dl 4 22) (sl 4 3) "white space",
   began (dl 4 5) (sl 4 3) "assignment",
   began (dl 9 14) (sl 4 3) "identifier",
   began (dl 6 14) (sl 4 3) "alphabetic character",
   token (dl 12 45) (sl 4 3) "T",
   ended (dl 6 14) (sl 4 4) "alphabetic character",
   began (dl 6 38) (sl 4 4) "alphabetic character",
   token (dl 10 48) (sl 4 4) "E",
   ended (dl 6 38) (sl 4 5) "alphabetic character",
   began (dl 6 38) (sl 4 5) "alphabetic character",
   token (dl 13 27) (sl 4 5) "X",
   ended (dl 6 38) (sl 4 6) "alphabetic character",
   began (dl 6 38) (sl 4 6) "alphabetic character",
   token (dl 12 45) (sl 4 6) "T",
   ended (dl 6 38) (sl 4 7) "alphabetic character",
   ended (dl 9 14) (sl 4 7) "identifier",
   token (dl 9 27) (sl 4 7) ":=",
   began (dl 9 58) (sl 4 9) "string",
   token (dl 8 10) (sl 4 9) "\"",
   began (dl 8 18) (sl 4 10) "all characters",
   token (dl 16 18) (sl 4 10) "H",
   ended (dl 8 18) (sl 4 11) "all characters",
   began (dl 8 18) (sl 4 11) "all characters",
   token (dl 16 18) (sl 4 11) "e",
   ended (dl 8 18) (sl 4 12) "all characters",
   began (dl 8 18) (sl 4 12) "all characters",
   token (dl 16 18) (sl 4 12) "l",
   ended (dl 8 18) (sl 4 13) "all characters",
   began (dl 8 18) (sl 4 13) "all characters",
   token (dl 16 18) (sl 4 13) "l",
   ended (dl 8 18) (sl 4 14) "all characters",
   began (dl 8 18) (sl 4 14) "all characters",
   token (dl 16 18) (sl 4 14) "o",
   ended (dl 8 18) (sl 4 15) "all characters",
   began (dl 8 18) (sl 4 15) "all characters",
   token (dl 16 18) (sl 4 15) " ",
   ended (dl 8 18) (sl 4 16) "all characters",
   began (dl 8 18) (sl 4 16) "all characters",
   token (dl 16 18) (sl 4 16) "w",
   ended (dl 8 18) (sl 4 17) "all characters",
   began (dl 8 18) (sl 4 17) "all characters",
   token (dl 16 18) (sl 4 17) "o",
   ended (dl 8 18) (sl 4 18) "all characters",
   began (dl 8 18) (sl 4 18) "all characters",
   token (dl 16 18) (sl 4 18) "r",
   ended (dl 8 18) (sl 4 19) "all characters",
   began (dl 8 18) (sl 4 19) "all characters",
   token (dl 16 18) (sl 4 19) "l",
   ended (dl 8 18) (sl 4 20) "all characters",
   began (dl 8 18) (sl 4 20) "all characters",
   token (dl 16 18) (sl 4 20) "d",
   ended (dl 8 18) (sl 4 21) "all characters",
   began (dl 8 18) (sl 4 21) "all characters",
   token (dl 16 18) (sl 4 21) "!",
   ended (dl 8 18) (sl 4 22) "all characters",
   token (dl 8 42) (sl 4 22) "\"",
   ended (dl 9 58) (sl 4 23) "string",
   ended (dl 4 5) (sl 4 23) "assignment",
   token (dl 4 17) (sl 4 23) ";",
   began (dl 4 22) (sl 4 24) "white space",
   token (dl 15 15) (sl 4 24) "\n",
   ended (dl 4 22) (sl 5 1) "white space",
   token (dl 5 3) (sl 5 1) "END.",
   ended (dl 2 1) (sl 5 5) "program"]

set_option maxHeartbeats 0 in
-- src/test.rs:86
example : (match parseWith programConfig 2000 program "program".toList demo with
    | .ok events => decide (events = demoEvents)
    | _ => false) = true := by decide +kernel

end Ebnf.Conform

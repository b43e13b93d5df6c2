import Verif.Text.Parse
/-!
# Minified documents

Models `lib/graphql-tools/src/parser/query/minify.rs` 16-40, which the router uses for the text of an
operation it reports (`bin/router/src/pipeline/parser.rs` 44, 175).
-/
namespace Verif.Text

/-- The text of a token as it stands in the source, with its quotes.
Models `Token::value` (`lib/graphql-tools/src/parser/tokenizer.rs` 20-24, 190-333). -/
def tokTxt : Tok → Txt
  | .p p => p.txt
  | .name n => n
  | .int raw => raw
  | .float raw => raw
  | .str raw => '"' :: raw ++ ['"']
  | .block raw => ['"', '"', '"'] ++ raw ++ ['"', '"', '"']
  | .bad => []

/-- Whether a token is not a punctuator (minify.rs 25). -/
def nonPunct : Tok → Bool
  | .p _ => false
  | _ => true

/-- The texts of tokens, with a space between two that are not punctuators. The flag says whether the
last token was not a punctuator (the code calls it `prev_was_punctuator`).
Models the loop of minify.rs 21-37. -/
def minifyToks : Bool → List Tok → Txt
  | _, [] => []
  | prev, t :: ts =>
    (if prev && nonPunct t then [' '] else []) ++ tokTxt t ++ minifyToks (nonPunct t) ts

/-- The minified text; `none` is an error of the tokenizer. Models minify.rs 16-40
(`minify_query`): without a limit of tokens. -/
def minify (t : Txt) : Option Txt :=
  if Tok.bad ∈ lex none t then none else some (minifyToks false (lex none t))

end Verif.Text

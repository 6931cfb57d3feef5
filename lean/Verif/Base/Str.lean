/- Rust `String`s as lists of characters. -/
namespace Oro
/-- `String` / `&str` contents -/
abbrev Str := List Char
end Oro

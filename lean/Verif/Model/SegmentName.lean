import Verif.Model.Prelude

set_option autoImplicit false

/-!
# The names of the files of a segment

`base64::encode_config(…, URL_SAFE_NO_PAD)` (crate `base64` 0.13, not part of /repo) takes the bytes three at
a time and writes their 24 bits as four characters of the URL-safe alphabet, most significant bits first;
one or two last bytes give two or three characters, missing bits being 0, and there is no padding.
A name is a list of characters.
-/

namespace Meerkat

/-- The alphabet of `base64::URL_SAFE`. -/
def URL_SAFE : List Char := "ABCDEFGHIJKLMNOPQRSTUVWXYZabcdefghijklmnopqrstuvwxyz0123456789-_".toList

/-- The character for six bits. -/
def base64Char (i : Nat) : Char := URL_SAFE.getD i 'A'

/-- `base64::encode_config(bytes, base64::URL_SAFE_NO_PAD)`. -/
def base64Encode : Bytes → List Char
  | a :: b :: c :: rest =>
    [base64Char (a.toNat / 4), base64Char (a.toNat % 4 * 16 + b.toNat / 16),
     base64Char (b.toNat % 16 * 4 + c.toNat / 64), base64Char (c.toNat % 64)] ++ base64Encode rest
  | [a, b] =>
    [base64Char (a.toNat / 4), base64Char (a.toNat % 4 * 16 + b.toNat / 16), base64Char (b.toNat % 16 * 4)]
  | [a] => [base64Char (a.toNat / 4), base64Char (a.toNat % 4 * 16)]
  | [] => []

/-- segment_writer.rs:110 `DATA_FILE_EXT`. -/
def DATA_FILE_EXT : List Char := ['d', 'a', 't']

/-- segment_writer.rs:111 `INDEX_FILE_EXT`. -/
def INDEX_FILE_EXT : List Char := ['i', 'd', 'x']

/-- segment_writer.rs:145-148 `data_file_name`. -/
def dataFileName (segmentId : Bytes) : List Char := base64Encode segmentId ++ ['.'] ++ DATA_FILE_EXT

/-- segment_writer.rs:145-149 `index_file_name`. -/
def indexFileName (segmentId : Bytes) : List Char := base64Encode segmentId ++ ['.'] ++ INDEX_FILE_EXT

end Meerkat

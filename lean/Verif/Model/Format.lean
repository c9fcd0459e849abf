import Verif.Model.Basic

/-!
On-disk format: `src/include/private/zlib_with_tools/zlibwt_compress_decompress_common.h`,
`…_version_0000.h` and `include/zlib_with_tools/zlibwt_compress_decompress_common.h`.
-/

namespace Zwt

/-- `ZLIBWT_MAIN_HEADER_SIZE`, private `zlibwt_compress_decompress_common.h:17`. -/
def MAIN_HEADER_SIZE : Nat := 128
/-- `ZLIBWT_DEF_CHUNK_SIZE`, private `zlibwt_compress_decompress_common.h:18`. -/
def DEF_CHUNK_SIZE : Nat := 524288
/-- `sizeof(struct SFileItem)`, public `zlibwt_compress_decompress_common.h:34-47`. -/
def ITEM_SIZE : Nat := 40
/-- `ZLIBWT_VERSION`, `export_symbols.h:13`. -/
def VERSION : Nat := 0

/-- `ZLIBWT_NORM_LEN(len) = ((len>>3)+1)<<3` evaluated in an unsigned type of `2^w` values,
private `zlibwt_compress_decompress_common.h:21`. -/
def normLen (w len : Nat) : Nat := (((len % 2^w) >>> 3) + 1) <<< 3 % 2^w

/-- The macro on `uint32_t` (name lengths). -/
abbrev norm32 (len : Nat) : Nat := normLen 32 len
/-- The macro on `uint64_t` (payload sizes). -/
abbrev norm64 (len : Nat) : Nat := normLen 64 len

/-- `enum TypeOfCompressedContent`, public `zlibwt_compress_decompress_common.h:25-30`. -/
def CT_NONE : Nat := 0
def CT_DIRECTORY : Nat := 1
def CT_FILE : Nat := 2
def CT_BLOB : Nat := 4

/-- `ZLIBWT_DIR_CONTENT_*`, private `…_version_0000.h:14-18`. -/
def K_FILE : Nat := 0
def K_DIR_START : Nat := 1
def K_DIR_END : Nat := 2
def K_SINGLE_BLOB : Nat := 3
def K_SYM_LINK : Nat := 4

/-- `struct SCompressDecompressHeader` as memory: version, content kind, 120 reserved bytes
(private `zlibwt_compress_decompress_common.h:24-33`).  `junk` are the reserved bytes. -/
def headerBytes (version kind : Nat) (junk : Bytes) : Bytes :=
  leEnc 4 version ++ leEnc 4 kind ++ junk

/-- `header.used.version` after `le32toh`. -/
def hdrVersion (h : Bytes) : Nat := leDec (h.take 4)
/-- `header.used.typeOfCompressedContent` after `le32toh`. -/
def hdrKind (h : Bytes) : Nat := leDec ((h.drop 4).take 4)

/-- Field values of a `struct SFileItem`
(public `zlibwt_compress_decompress_common.h:34-47`). -/
structure ItemFields where
  fileSize : Nat
  fileSizeNorm : Nat
  nameLen : Nat
  nameLenNorm : Nat
  mode : Nat
  kind : Nat
  deriving DecidableEq, Repr

/-- Memory of a `struct SFileItem` with the given fields (stored with `htole*`);
`junk` are the 11 reserved bytes at offset 29. -/
def itemBytes (f : ItemFields) (junk : Bytes) : Bytes :=
  leEnc 8 f.fileSize ++ leEnc 8 f.fileSizeNorm ++ leEnc 4 f.nameLen ++ leEnc 4 f.nameLenNorm
    ++ leEnc 4 f.mode ++ leEnc 1 f.kind ++ junk

/-- Field loads (`le*toh`) from the memory of a `struct SFileItem`. -/
def itFileSize (m : Bytes) : Nat := leDec (m.take 8)
def itFileSizeNorm (m : Bytes) : Nat := leDec ((m.drop 8).take 8)
def itNameLen (m : Bytes) : Nat := leDec ((m.drop 16).take 4)
def itNameLenNorm (m : Bytes) : Nat := leDec ((m.drop 20).take 4)
def itMode (m : Bytes) : Nat := leDec ((m.drop 24).take 4)
def itKind (m : Bytes) : Nat := leDec ((m.drop 28).take 1)

/-- All fields of an item record. -/
def itemFields (m : Bytes) : ItemFields :=
  { fileSize := itFileSize m, fileSizeNorm := itFileSizeNorm m, nameLen := itNameLen m,
    nameLenNorm := itNameLenNorm m, mode := itMode m, kind := itKind m }

end Zwt
